import Verif.Proof.TableRead

/-! # Scanning a written table sequentially -/

namespace Xdvdfs

open TabWriter Spec

/-- What the scanner reports for an entry at table offset `o`. -/
def scanEnt (e : Ent) (o : Nat) : DirEnt := { node := e.node, name := e.name, offset := o % 2048 }

/-- The scanner is positioned at table offset `p`. -/
structure ScanAt (tbl : Bytes) (s0 N : Nat) (s : Scan) (p : Nat) : Prop where
  sector : s.sector = s0 + p / 2048
  offset : s.offset = p % 2048
  endS : s.endSector = s0 + N
  buf : p / 2048 < N → s.buf = slice tbl (2048 * (p / 2048)) 2048
  room : p % 2048 + 14 < 2048

/-- Where the scanner stands after an entry that ends at `p`. -/
def canon (p : Nat) : Nat := if p % 2048 + 14 ≥ 2048 then (p / 2048 + 1) * 2048 else p

theorem nextSector_at {dev : Dev} {tbl : Bytes} {s0 N : Nat} (hd : HoldsAt dev (2048 * s0) tbl)
    (hl : tbl.length = 2048 * N) {s : Scan} {q : Nat} (hs : s.sector = s0 + q)
    (he : s.endSector = s0 + N) :
    ∃ s', s.nextSector dev = .ok s' ∧ ScanAt tbl s0 N s' ((q + 1) * 2048) := by
  have hdiv : (q + 1) * 2048 / 2048 = q + 1 := by omega
  unfold Scan.nextSector
  simp only
  by_cases h : s.sector + 1 ≥ s.endSector
  · rw [if_pos h]
    exact ⟨_, rfl, ⟨by simp only [hs, hdiv]; omega, by simp, he,
      by rw [hdiv]; intro h'; omega, by omega⟩⟩
  · rw [if_neg h]
    have hr : dev.read ((s.sector + 1) * sectorSize) 2048 = .ok (slice tbl (2048 * (q + 1)) 2048) := by
      have := hd (2048 * (q + 1)) 2048 (by omega)
      rw [← this, hs]; congr 1; simp only [sectorSize]; omega
    rw [hr]
    exact ⟨_, rfl, ⟨by simp only [hs, hdiv]; omega, by simp, he,
      by rw [hdiv]; intro _; rfl, by omega⟩⟩

theorem step_entry {dev : Dev} {tbl : Bytes} {s0 N : Nat} (hd : HoldsAt dev (2048 * s0) tbl)
    (hl : tbl.length = 2048 * N) {s : Scan} {p : Nat} (hs : ScanAt tbl s0 N s p) {e : Ent}
    {a b : Bytes} (hab : tbl = a ++ (e.bytes ++ b)) (hap : a.length = p) (hp4 : p % 4 = 0)
    (hfit : p % 2048 + e.len ≤ 2048)
    (hn : e.node.dirent.nameLen.toNat = e.name.length)
    (h0 : e.node.dirent.attrs ≠ 0) (hf : e.node.dirent.attrs ≠ 0xff) :
    ∃ s', s.step dev = .ok (.inr (some (scanEnt e p), s')) ∧ ScanAt tbl s0 N s' (canon (p + e.len)) := by
  have hbl : e.bytes.length = e.len := entryBytes_length _ _
  have hb : e.name.length ≤ 255 := by
    rw [← hn]; have := e.node.dirent.nameLen.toNat_lt; omega
  have hel : _ ∧ _ ∧ _ ∧ _ ∧ _ := elen_spec hb
  change e.len % 4 = 0 ∧ 14 + e.name.length ≤ e.len ∧ e.len < 14 + e.name.length + 4 ∧ 16 ≤ e.len ∧
    e.len ≤ 272 at hel
  have htl : p + e.len ≤ 2048 * N := by
    rw [← hl, hab]; simp only [List.length_append]; omega
  have hbuf := hs.buf (by omega)
  have sl (o n : Nat) (h : o + n ≤ e.len) : slice s.buf (p % 2048 + o) n = slice e.bytes o n := by
    rw [hbuf, slice_slice _ _ _ _ _ (by omega), show 2048 * (p / 2048) + (p % 2048 + o) = p + o by omega,
      hab, ← hap, slice_mid _ _ _ _ _ (by omega)]
  have s1 : slice s.buf s.offset 14 = e.node.ser := by
    have := sl 0 14 (by omega)
    rw [hs.offset]
    rw [Nat.add_zero] at this
    rw [this]
    unfold Ent.bytes entryBytes
    simp only [List.append_assoc]
    exact slice_append_left _ _ _ (ser_length _)
  have s2 : slice s.buf (s.offset + 14) e.name.length = e.name := by
    rw [hs.offset, sl 14 _ (by omega)]
    unfold Ent.bytes entryBytes
    simp only [List.append_assoc]
    rw [slice_append_right _ _ _ _ (by rw [ser_length]; omega), ser_length]
    exact slice_append_left _ _ _ rfl
  have ho : s.offset + 14 + e.name.length + (4 - (s.offset + 14 + e.name.length) % 4) % 4
      = p % 2048 + e.len := by
    rw [hs.offset]
    have hp : p % 2048 % 4 = 0 := by omega
    omega
  have hoff := hs.offset
  have hroom := hs.room
  unfold Scan.step
  rw [hoff] at s1 s2 ho
  simp only [hoff]
  have hA : decide (p % 2048 + 14 < 2048) = true := by simpa using hroom
  have hB : decide (p % 2048 + 14 + e.name.length ≤ 2048) = true := by simp; omega
  simp only [hA, Res.assert_true, Res.ok_bind, s1, deserDirentNode_ser h0 hf, hn, hB, s2, ho]
  by_cases hbig : p % 2048 + e.len + 14 ≥ 2048
  · rw [if_pos hbig]
    obtain ⟨s', e1, e2⟩ := nextSector_at hd hl (s := { s with offset := p % 2048 + e.len })
      (q := p / 2048) hs.sector hs.endS
    rw [e1]
    refine ⟨s', rfl, ?_⟩
    have : canon (p + e.len) = (p / 2048 + 1) * 2048 := by
      unfold canon
      by_cases hx : p % 2048 + e.len = 2048
      · rw [if_neg (by omega)]; omega
      · rw [if_pos (by omega)]; omega
    rw [this]; exact e2
  · rw [if_neg hbig]
    refine ⟨_, rfl, ?_⟩
    have : canon (p + e.len) = p + e.len := by unfold canon; rw [if_neg (by omega)]
    rw [this]
    have hq : (p + e.len) / 2048 = p / 2048 := by omega
    exact ⟨by rw [hq]; exact hs.sector, by simp only; omega, hs.endS, by rw [hq]; exact hs.buf, by omega⟩

theorem slice_replicate_mid (a b : Bytes) (k o n : Nat) (h : o + n ≤ k) :
    slice (a ++ (List.replicate k 0xff ++ b)) (a.length + o) n = List.replicate n 0xff := by
  rw [slice_mid _ _ _ _ _ (by simpa using h)]
  simp [slice]; omega

theorem step_gap {dev : Dev} {tbl : Bytes} {s0 N : Nat} {s : Scan} {p : Nat}
    (hs : ScanAt tbl s0 N s p) (hN : p / 2048 < N)
    (hff : slice tbl p 14 = List.replicate 14 0xff) :
    s.step dev = (if s.sector + 1 < s.endSector then do
        let s ← s.nextSector dev
        pure (.inl s)
      else pure (.inr (none, s))) := by
  have h1 : slice s.buf s.offset 14 = List.replicate 14 0xff := by
    rw [hs.buf hN, hs.offset, slice_slice _ _ _ _ _ (by have := hs.room; omega), ← hff]
    congr 1; omega
  have hA : decide (s.offset + 14 < 2048) = true := by
    rw [hs.offset]; simpa using hs.room
  unfold Scan.step
  simp only [hA, Res.assert_true, Res.ok_bind, h1]
  have : deserDirentNode (List.replicate 14 0xff) = none := by
    unfold deserDirentNode; rw [if_pos (.inl rfl)]
  rw [this]

/-- Header fields that make an entry recognisable. -/
def EntOK (e : Ent) : Prop := e.node.dirent.nameLen.toNat = e.name.length ∧
  e.node.dirent.attrs ≠ 0 ∧ e.node.dirent.attrs ≠ 0xff

theorem next_entry {dev : Dev} {tbl : Bytes} {s0 N : Nat} (hd : HoldsAt dev (2048 * s0) tbl)
    (hl : tbl.length = 2048 * N) {s : Scan} {pos : Nat} (hs : ScanAt tbl s0 N s (canon pos)) {e : Ent}
    {a b : Bytes} (hab : tbl = a ++ (List.replicate (pad pos e.len) 0xff ++ (e.bytes ++ b)))
    (hap : a.length = pos) (hp4 : pos % 4 = 0) (he : EntOK e) (fuel : Nat) :
    ∃ s', s.next dev (fuel + 2) = .ok (some (scanEnt e (place pos e.len)), s') ∧
      ScanAt tbl s0 N s' (canon (place pos e.len + e.len)) := by
  obtain ⟨hn, h0, hf⟩ := he
  have hbl : e.bytes.length = e.len := entryBytes_length _ _
  have hb : e.name.length ≤ 255 := by
    rw [← hn]; have := e.node.dirent.nameLen.toNat_lt; omega
  have hel : _ ∧ _ ∧ _ ∧ _ ∧ _ := elen_spec hb
  change e.len % 4 = 0 ∧ 14 + e.name.length ≤ e.len ∧ e.len < 14 + e.name.length + 4 ∧ 16 ≤ e.len ∧
    e.len ≤ 272 at hel
  have hpl : place pos e.len = pos + pad pos e.len := rfl
  have htl : place pos e.len + e.len ≤ 2048 * N := by
    rw [← hl, hab]; simp only [List.length_append, List.length_replicate]; omega
  have hab' : tbl = (a ++ List.replicate (pad pos e.len) 0xff) ++ (e.bytes ++ b) := by
    rw [hab]; simp
  have hap' : (a ++ List.replicate (pad pos e.len) 0xff).length = place pos e.len := by simp [hap, hpl]
  have hp4' := place_mod4 (l := e.len) hp4
  have direct (s : Scan) (hs : ScanAt tbl s0 N s (place pos e.len)) (hfit : place pos e.len % 2048 + e.len ≤ 2048) :
      ∃ s', s.step dev = .ok (.inr (some (scanEnt e (place pos e.len)), s')) ∧
        ScanAt tbl s0 N s' (canon (place pos e.len + e.len)) :=
    step_entry hd hl hs hab' hap' hp4' hfit hn h0 hf
  have hfit : place pos e.len % 2048 + e.len ≤ 2048 := by
    rcases place_cases (pos := pos) (l := e.len) (by omega) (by omega) with ⟨h1, h2⟩ | ⟨h1, h2, h3⟩ <;>
      rw [h1] <;> omega
  by_cases hc : canon pos = place pos e.len
  · rw [hc] at hs
    obtain ⟨s', e1, e2⟩ := direct s hs hfit
    refine ⟨s', ?_, e2⟩
    unfold Scan.next
    rw [if_neg (by rw [hs.sector, hs.endS]; omega)]
    unfold Scan.nextLoop
    rw [e1]; rfl
  · -- a gap up to the end of the sector
    have hcp : canon pos = pos ∧ place pos e.len = (pos / 2048 + 1) * 2048 ∧ pos % 2048 + 14 < 2048 := by
      unfold canon at hc ⊢
      rcases place_cases (pos := pos) (l := e.len) (by omega) (by omega) with ⟨h1, h2⟩ | ⟨h1, h2, h3⟩
      · rw [h1, if_neg (by omega)] at hc; exact absurd rfl hc
      · split at hc
        · rw [h1] at hc; exact absurd rfl hc
        · rw [if_neg (by omega)]; exact ⟨rfl, h1, by omega⟩
    obtain ⟨hc1, hc2, hc3⟩ := hcp
    rw [hc1] at hs
    have hff : slice tbl pos 14 = List.replicate 14 0xff := by
      have := slice_replicate_mid a (e.bytes ++ b) (pad pos e.len) 0 14 (by omega)
      rw [← hab, hap, Nat.add_zero] at this
      exact this
    have hst := step_gap (dev := dev) hs (by omega) hff
    rw [if_pos (by rw [hs.sector, hs.endS]; omega)] at hst
    obtain ⟨s1, e1, e2⟩ := nextSector_at hd hl hs.sector hs.endS
    rw [e1] at hst
    rw [← hc2] at e2
    obtain ⟨s', e3, e4⟩ := direct s1 e2 hfit
    refine ⟨s', ?_, e4⟩
    unfold Scan.next
    rw [if_neg (by rw [hs.sector, hs.endS]; omega)]
    unfold Scan.nextLoop
    rw [hst]
    simp only [Res.ok_bind, Res.pure_eq]
    unfold Scan.nextLoop
    rw [e3]; rfl

/-- Entries with their offsets, as the scanner reports them. -/
def scanEnts : Nat → List Ent → List DirEnt
  | _, [] => []
  | pos, e :: es => scanEnt e (place pos e.len) :: scanEnts (place pos e.len + e.len) es

theorem drain_all {dev : Dev} {tbl : Bytes} {s0 N : Nat} (hd : HoldsAt dev (2048 * s0) tbl)
    (hl : tbl.length = 2048 * N) (k : Nat) : ∀ (es : List Ent) (pos : Nat) (a : Bytes) (s : Scan)
    (acc : List DirEnt) (fuel : Nat),
    tbl = a ++ (tabBytes pos es ++ List.replicate k 0xff) → a.length = pos → pos % 4 = 0 →
    k < 2048 → 0 < pos + es.length →
    ScanAt tbl s0 N s (canon pos) → (∀ e ∈ es, EntOK e) → es.length < fuel →
    scanDrain dev fuel s acc = .ok (acc.reverse ++ scanEnts pos es) := by
  intro es
  induction es with
  | nil =>
    intro pos a s acc fuel htbl ha hp4 hk hpos hs hok hf
    obtain ⟨f, rfl⟩ : ∃ f, fuel = f + 1 := ⟨fuel - 1, by simp at hf; omega⟩
    have hN : pos + k = 2048 * N := by rw [← hl, htbl]; simp [tabBytes, ha]
    have hcan : canon pos = pos ∨ canon pos = (pos / 2048 + 1) * 2048 := by
      unfold canon; split <;> simp
    have hnext : s.next dev (f + 1) = .ok (none, s) := by
      unfold Scan.next
      by_cases hge : s.sector ≥ s.endSector
      · rw [if_pos hge]
      · rw [if_neg hge]
        have hlt : canon pos / 2048 < N := by
          have := hs.sector; have := hs.endS; omega
        have hcp : canon pos = pos := by
          simp only [List.length_nil, Nat.add_zero] at hpos
          rcases hcan with h | h
          · exact h
          · rw [h] at hlt; omega
        rw [hcp] at hs hlt
        have hroom := hs.room
        have hff : slice tbl pos 14 = List.replicate 14 0xff := by
          have := slice_replicate_mid a [] k 0 14 (by omega)
          simp only [List.append_nil, Nat.add_zero] at this
          rw [htbl, ← ha]
          simpa [tabBytes] using this
        have hst := step_gap (dev := dev) hs hlt hff
        simp only [List.length_nil, Nat.add_zero] at hpos
        rw [if_neg (by rw [hs.sector, hs.endS]; omega)] at hst
        unfold Scan.nextLoop
        rw [hst]; rfl
    unfold scanDrain
    rw [hnext]
    simp [scanEnts]
  | cons e es ih =>
    intro pos a s acc fuel htbl ha hp4 hk hpos hs hok hf
    simp only [List.length_cons] at hf
    obtain ⟨f, rfl⟩ : ∃ f, fuel = f + 2 := ⟨fuel - 2, by omega⟩
    have heok := hok e (by simp)
    have hb : e.name.length ≤ 255 := by
      rw [← heok.1]; have := e.node.dirent.nameLen.toNat_lt; omega
    have hel : _ ∧ _ ∧ _ ∧ _ ∧ _ := elen_spec hb
    change e.len % 4 = 0 ∧ 14 + e.name.length ≤ e.len ∧ e.len < 14 + e.name.length + 4 ∧ 16 ≤ e.len ∧
      e.len ≤ 272 at hel
    obtain ⟨s', e1, e2⟩ := next_entry hd hl hs (e := e) (a := a)
      (b := tabBytes (place pos e.len + e.len) es ++ List.replicate k 0xff)
      (by rw [htbl]; simp [tabBytes]) ha hp4 heok f
    unfold scanDrain
    rw [e1]
    simp only [Res.ok_bind]
    have hp4' := place_mod4 (l := e.len) hp4
    have hbl : e.bytes.length = e.len := entryBytes_length _ _
    rw [ih (place pos e.len + e.len) (a ++ (List.replicate (pad pos e.len) 0xff ++ e.bytes)) s'
      (scanEnt e (place pos e.len) :: acc) (f + 1)]
    · simp [scanEnts]
    · rw [htbl]; simp [tabBytes]
    · simp only [List.length_append, List.length_replicate, ha, hbl, place]; omega
    · omega
    · exact hk
    · omega
    · exact e2
    · exact fun x hx => hok x (by simp [hx])
    · omega

theorem Written.scan {w : TabWriter} {next next' : Nat} {r : DiskRepr} {A' : Avl DirData}
    {T' : ITree DirData} {lens : List Nat} {es : List (Ent × Listing)}
    (W : Written w next r next' A' T' lens es) {dev : Dev} {tab : Region}
    (hd : HoldsAt dev (2048 * tab.sector.toNat) r.entryTable) (hne : A'.tree ≠ [])
    (ha : AttrsOK (A'.tree.map AvlNode.data)) (hsz : total 0 lens ≤ tab.size.toNat)
    (hsz2 : tab.size.toNat ≤ roundUp (total 0 lens)) {fuel : Nat} (hf : es.length < fuel) :
    scanAll dev tab fuel = .ok (scanEnts 0 (es.map Prod.fst)) := by
  obtain ⟨f1, f2, f3, f4, f5, f6⟩ := W.facts
  have hpos : 0 < es.length := by
    rw [f2]; exact List.length_pos_iff.2 hne
  have hlen0 : 0 < total 0 lens := by
    cases hl : lens with
    | nil => rw [hl] at f1; simp at f1; exact absurd (by simpa using f1.symm) hne
    | cons l ls =>
      simp only [total]
      have := le_total (place 0 l + l) ls
      have := (f5 l (by rw [hl]; simp)).2.1
      omega
  have hE : ∀ e ∈ es.map Prod.fst, EntOK e := by
    intro e he
    obtain ⟨k, hk⟩ := List.mem_iff_getElem?.1 he
    have hklt : k < A'.tree.length := by
      rcases Nat.lt_or_ge k es.length with h | h
      · omega
      · rw [List.getElem?_eq_none (by simpa using h)] at hk; cases hk
    obtain ⟨e', l', he', hent⟩ := (mkEnts_spec W.ents).2.2.2 k _ (List.getElem?_eq_getElem hklt)
    rw [List.getElem?_map, he'] at hk
    cases hk
    have hattr := ha _ (List.mem_map_of_mem (List.getElem_mem hklt))
    have hat := congrArg DiskData.attrs hent.dirent
    refine ⟨?_, ?_, ?_⟩
    · rw [hent.dirent]
      have := encodeName_len hent.name
      show (UInt8.ofNat e'.name.length).toNat = _
      simp; omega
    · rw [hat]; rcases hattr with h | h <;> simp only [h] <;> decide
    · rw [hat]; rcases hattr with h | h <;> simp only [h] <;> decide
  unfold scanAll scanInit
  have hem : ¬ tab.isEmpty = true := by
    intro h; simp [Region.isEmpty] at h; rw [h] at hsz; simp at hsz; omega
  rw [if_neg hem, Region.offset_of_lt (by omega)]
  simp only [Res.ok_bind]
  have hN : roundUp (total 0 lens) = 2048 * ((total 0 lens + 2047) / 2048) := by unfold roundUp; omega
  have hr := hd 0 2048 (by rw [f6, hN]; omega)
  rw [hr]
  simp only [Res.ok_bind, Res.pure_eq]
  have hend : (tab.size.toNat + 2047) / 2048 = (total 0 lens + 2047) / 2048 := by
    rw [hN] at hsz2; omega
  rw [drain_all hd (N := (total 0 lens + 2047) / 2048) (by rw [f6, hN])
    ((2048 - total 0 lens % 2048) % 2048) (es.map Prod.fst) 0 [] _ [] fuel]
  · simp
  · rw [W.table]; simp
  · rfl
  · rfl
  · omega
  · simpa using hpos
  · have : canon 0 = 0 := by unfold canon; rfl
    rw [this]
    exact ⟨by simp, by simp, by simp only [hend], by intro _; simp, by omega⟩
  · exact hE
  · simpa using hf

end Xdvdfs
