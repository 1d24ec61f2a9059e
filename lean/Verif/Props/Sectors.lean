import Verif.Spec.Sectors
import Verif.Props.Reader

/-!
# Exactly what a sequential scan does (C12)
-/

namespace Xdvdfs.Props

open Xdvdfs Spec Res

/-! ## Helper lemmas -/

theorem SectorEntries.det {b : Bytes} {o : Nat} {l l' : List DirEnt} {w w' : Bool} (h : SectorEntries b o l w)
    (h' : SectorEntries b o l' w') : l = l' ∧ w = w' := by
  induction h generalizing l' w' with
  | gap h1 => cases h' <;> simp_all
  | crossing h1 h2 =>
    cases h' with
    | gap g => simp_all
    | crossing => simp
    | last g g2 => rw [h1] at g; cases g; omega
    | more g g2 => rw [h1] at g; cases g; omega
  | last h1 h2 h3 =>
    cases h' with
    | gap g => simp_all
    | crossing g g2 => rw [h1] at g; cases g; omega
    | last g g2 => rw [h1] at g; cases g; simp
    | more g g2 => rw [h1] at g; cases g; omega
  | more h1 h2 _ ih =>
    cases h' with
    | gap g => simp_all
    | crossing g g2 => rw [h1] at g; cases g; omega
    | last g g2 => rw [h1] at g; cases g; omega
    | more g g2 g3 => rw [h1] at g; cases g; obtain ⟨rfl, rfl⟩ := ih g3; simp

/-- The outcome of going through the sectors from `x` on, with `pre` found before. -/
def Onward (dev : Dev) (E x : Nat) (pre : List DirEnt) : Res (List DirEnt) → Prop
  | .ok l => ∃ ls : List (List DirEnt), ls.length = E - x ∧ l = pre ++ ls.flatten ∧
      ∀ j (hj : j < ls.length), GoodSector dev (x + j) ls[j]
  | .panic => ∃ k, x ≤ k ∧ k < E ∧ (∀ j, x ≤ j → j < k → ∃ l, GoodSector dev j l) ∧ BadSector dev k
  | .err e => ∃ k, x ≤ k ∧ k < E ∧ (∀ j, x ≤ j → j < k → ∃ l, GoodSector dev j l) ∧
      dev.read (k * 2048) 2048 = .err e
  | .hang => True

theorem Onward.step {dev : Dev} {E x : Nat} {pre l : List DirEnt} {r : Res (List DirEnt)} (hx : x < E)
    (hg : GoodSector dev x l) (h : Onward dev E (x + 1) (pre ++ l) r) : Onward dev E x pre r := by
  cases r with
  | hang => trivial
  | ok m =>
    obtain ⟨ls, h1, h2, h3⟩ := h
    refine ⟨l :: ls, by simp only [List.length_cons]; omega, by rw [h2]; simp, fun j hj => ?_⟩
    cases j with
    | zero => exact hg
    | succ j =>
      have := h3 j (by simpa using hj)
      rw [show x + (j + 1) = x + 1 + j by omega]
      simpa using this
  | panic =>
    obtain ⟨k, h1, h2, h3, h4⟩ := h
    refine ⟨k, by omega, h2, fun j hj hk => ?_, h4⟩
    by_cases e : j = x
    · subst e; exact ⟨l, hg⟩
    · exact h3 j (by omega) hk
  | err e =>
    obtain ⟨k, h1, h2, h3, h4⟩ := h
    refine ⟨k, by omega, h2, fun j hj hk => ?_, h4⟩
    by_cases e : j = x
    · subst e; exact ⟨l, hg⟩
    · exact h3 j (by omega) hk

theorem Onward.done {dev : Dev} {E x : Nat} {pre : List DirEnt} (hx : E ≤ x) : Onward dev E x pre (.ok pre) :=
  ⟨[], by simp; omega, by simp, by simp⟩

/-- The outcome of going on inside of sector `x`, which holds `b`, at the offset `o`. -/
def Within (dev : Dev) (E x : Nat) (b : Bytes) (o : Nat) (pre : List DirEnt) (r : Res (List DirEnt)) : Prop :=
  ∃ l w, SectorEntries b o l w ∧ (w = false → r = .panic ∨ r = .hang) ∧ (w = true → Onward dev E (x + 1) (pre ++ l) r)

/-- The outcome of a scan that is in the state `s`. -/
def From (dev : Dev) (s : Scan) (pre : List DirEnt) (r : Res (List DirEnt)) : Prop :=
  if s.endSector ≤ s.sector then r = .ok pre ∨ r = .hang else Within dev s.endSector s.sector s.buf s.offset pre r

theorem Within.onward {dev : Dev} {E x : Nat} {b : Bytes} {pre : List DirEnt} {r : Res (List DirEnt)} (hx : x < E)
    (hb : dev.read (x * 2048) 2048 = .ok b) (h : Within dev E x b 0 pre r) : Onward dev E x pre r := by
  obtain ⟨l, w, h1, h2, h3⟩ := h
  cases w with
  | true => exact (h3 rfl).step hx ⟨b, hb, h1⟩
  | false =>
    rcases h2 rfl with rfl | rfl
    · exact ⟨x, Nat.le_refl _, hx, fun j h1 h2 => by omega, b, l, hb, h1⟩
    · trivial

/-- Going to the next sector, after the entries `pre`. -/
theorem nextSector_outcome {dev : Dev} {s : Scan} (hr : ∀ x, x < s.endSector → (dev.read (x * 2048) 2048).Returns) :
    match s.nextSector dev with
    | .ok s' => s'.endSector = s.endSector ∧ s'.offset = 0 ∧ s'.sector = s.sector + 1 ∧
        ∀ pre r, From dev s' pre r → Onward dev s.endSector (s.sector + 1) pre r
    | .err e => ∀ pre, Onward dev s.endSector (s.sector + 1) pre (.err e)
    | _ => False := by
  unfold Scan.nextSector
  simp only
  by_cases hlt : s.endSector ≤ s.sector + 1
  · rw [if_pos hlt]
    refine ⟨rfl, rfl, rfl, fun pre r h => ?_⟩
    unfold From at h
    rw [if_pos hlt] at h
    rcases h with rfl | rfl
    · exact Onward.done hlt
    · trivial
  · rw [if_neg hlt]
    have hret := hr (s.sector + 1) (by omega)
    simp only [sectorSize]
    cases hb : dev.read ((s.sector + 1) * 2048) 2048 with
    | ok b =>
      simp only [ok_bind, pure_eq]
      refine ⟨trivial, trivial, trivial, fun pre r h => ?_⟩
      unfold From at h
      rw [if_neg hlt] at h
      exact Within.onward (by omega) hb h
    | err e =>
      intro pre
      exact ⟨s.sector + 1, Nat.le_refl _, by omega, fun j h1 h2 => by omega, hb⟩
    | panic => exact absurd hb hret.1
    | hang => exact absurd hb hret.2

theorem nextLoop_outcome {dev : Dev} : ∀ (fuel : Nat) {s : Scan},
    (∀ x, x < s.endSector → (dev.read (x * 2048) 2048).Returns) → s.sector < s.endSector → s.offset + 14 < 2048 →
    match Scan.nextLoop dev fuel s with
    | .ok (none, _) => ∀ pre, Within dev s.endSector s.sector s.buf s.offset pre (.ok pre)
    | .ok (some d, s') => s'.endSector = s.endSector ∧ s'.offset + 14 < 2048 ∧
        ∀ pre r, From dev s' (pre ++ [d]) r → Within dev s.endSector s.sector s.buf s.offset pre r
    | .err e => ∀ pre, Within dev s.endSector s.sector s.buf s.offset pre (.err e)
    | .panic => ∀ pre, Within dev s.endSector s.sector s.buf s.offset pre .panic
    | .hang => True := by
  intro fuel
  induction fuel with
  | zero => intro s _ _ _; trivial
  | succ fuel ih =>
    intro s hr hlt ho
    simp only [Scan.nextLoop, Scan.step, ho, decide_true, assert_true, ok_bind]
    cases hn : deserDirentNode (slice s.buf s.offset 14) with
    | none =>
      simp only
      have hgap : SectorEntries s.buf s.offset [] true := .gap hn
      by_cases hx : s.sector + 1 < s.endSector
      · rw [if_pos hx]
        have hns := nextSector_outcome hr
        cases hs : s.nextSector dev with
        | ok s' =>
          rw [hs] at hns
          obtain ⟨k1, k2, k3, k4⟩ := hns
          simp only [ok_bind, pure_eq]
          have := ih (s := s') (by rw [k1]; exact hr) (by omega) (by omega)
          have lift : ∀ pre r, Within dev s'.endSector s'.sector s'.buf s'.offset pre r →
              Within dev s.endSector s.sector s.buf s.offset pre r := by
            intro pre r hw
            refine ⟨[], true, hgap, nofun, fun _ => ?_⟩
            rw [List.append_nil]
            exact k4 pre r (by unfold From; rw [if_neg (by omega)]; exact hw)
          split <;> rename_i heq <;> rw [heq] at this <;> simp only at this
          · exact fun pre => lift _ _ (this pre)
          · exact ⟨by rw [this.1, k1], this.2.1, fun pre r h => lift _ _ (this.2.2 pre r h)⟩
          · exact fun pre => lift _ _ (this pre)
          · exact fun pre => lift _ _ (this pre)
          · trivial
        | err e =>
          rw [hs] at hns
          simp only [err_bind]
          exact fun pre => ⟨[], true, hgap, nofun, fun _ => by rw [List.append_nil]; exact hns pre⟩
        | panic => rw [hs] at hns; exact hns.elim
        | hang => rw [hs] at hns; exact hns.elim
      · rw [if_neg hx]
        simp only [pure_eq, ok_bind]
        exact fun pre => ⟨[], true, hgap, nofun, fun _ => by rw [List.append_nil]; exact Onward.done (by omega)⟩
    | some node =>
      simp only
      by_cases hname : s.offset + 14 + node.dirent.nameLen.toNat ≤ 2048
      · simp only [hname, decide_true, assert_true, ok_bind]
        have e4 : s.offset + 14 + node.dirent.nameLen.toNat +
          (4 - (s.offset + 14 + node.dirent.nameLen.toNat) % 4) % 4 =
            (s.offset + 14 + node.dirent.nameLen.toNat + 3) / 4 * 4 := by omega
        rw [e4]
        by_cases hfull : (s.offset + 14 + node.dirent.nameLen.toNat + 3) / 4 * 4 + 14 ≥ 2048
        · rw [if_pos hfull]
          have hlast : SectorEntries s.buf s.offset [⟨node, slice s.buf (s.offset + 14) node.dirent.nameLen.toNat, s.offset⟩]
            true := .last hn hname hfull
          have hns := nextSector_outcome (dev := dev)
            (s := { s with offset := (s.offset + 14 + node.dirent.nameLen.toNat + 3) / 4 * 4 }) hr
          split at hns
          · next s' hs =>
            obtain ⟨k1, k2, k3, k4⟩ := hns
            rw [hs]
            simp only [ok_bind, pure_eq]
            exact ⟨k1, by omega, fun pre r h => ⟨_, true, hlast, nofun, fun _ => k4 _ r h⟩⟩
          · next e hs =>
            rw [hs]
            simp only [err_bind]
            exact fun pre => ⟨_, true, hlast, nofun, fun _ => hns _⟩
          · exact hns.elim
        · rw [if_neg hfull]
          simp only [pure_eq, ok_bind]
          refine ⟨trivial, by omega, fun pre r h => ?_⟩
          unfold From at h
          simp only at h
          rw [if_neg (by omega)] at h
          obtain ⟨l, w, g1, g2, g3⟩ := h
          refine ⟨_, w, .more hn (by omega) g1, g2, fun hw => ?_⟩
          have := g3 hw
          simpa using this
      · simp only [hname, decide_false, assert_false, panic_bind]
        exact fun pre => ⟨[], false, .crossing hn (by omega), fun _ => .inl rfl, nofun⟩

theorem scanDrain_outcome {dev : Dev} : ∀ (fuel : Nat) {s : Scan} (acc : List DirEnt),
    (∀ x, x < s.endSector → (dev.read (x * 2048) 2048).Returns) → s.offset + 14 < 2048 →
    scanDrain dev fuel s acc ≠ .hang → From dev s acc.reverse (scanDrain dev fuel s acc) := by
  intro fuel
  induction fuel with
  | zero => intro s acc _ _ h; exact absurd rfl h
  | succ fuel ih =>
    intro s acc hr ho h
    unfold scanDrain Scan.next at h ⊢
    by_cases hx : s.sector ≥ s.endSector
    · simp only [if_pos hx, ok_bind]
      unfold From
      rw [if_pos hx]
      exact .inl rfl
    · simp only [if_neg hx] at h ⊢
      have hl := nextLoop_outcome (fuel + 1) hr (by omega) ho
      unfold From
      rw [if_neg hx]
      split at hl
      · next heq => simp only [heq, ok_bind]; exact hl _
      · next d s' heq =>
        obtain ⟨k1, k2, k3⟩ := hl
        simp only [heq, ok_bind] at h ⊢
        refine k3 _ _ ?_
        have := ih (s := s') (d :: acc) (by rw [k1]; exact hr) k2 h
        simpa using this
      · next heq => simp only [heq, err_bind]; exact hl _
      · next heq => simp only [heq, panic_bind]; exact hl _
      · next heq => simp only [heq, hang_bind] at h; exact absurd rfl h

/-- The outcome of a scan. -/
theorem scanAll_outcome {dev : Dev} (hd : dev.SaneBelow (2 ^ 44)) {tab : Region} {fuel : Nat}
    (h : scanAll dev tab fuel ≠ .hang) :
    Onward dev (tab.sector.toNat + tableSectors tab) tab.sector.toNat [] (scanAll dev tab fuel) := by
  have h1 := tab.sector.toNat_lt
  have h2 := tab.size.toNat_lt
  have hr : ∀ x, x < tab.sector.toNat + tableSectors tab → (dev.read (x * 2048) 2048).Returns := by
    intro x hx
    unfold tableSectors at hx
    exact hd _ _ (by omega)
  unfold scanAll scanInit at h ⊢
  by_cases he : tab.isEmpty
  · simp only [if_pos he, ok_bind] at h ⊢
    have hz : tableSectors tab = 0 := by
      unfold Region.isEmpty at he
      unfold tableSectors
      rw [show tab.size = 0 by simpa using he]
      rfl
    have := scanDrain_outcome (dev := dev) fuel (s := ⟨0, List.replicate 2048 0xff, 0, 0⟩) [] (by simp) (by simp) h
    unfold From at this
    rw [if_pos (by simp)] at this
    rcases this with e | e
    · rw [e]; exact Onward.done (by omega)
    · exact absurd e h
  · simp only [if_neg he] at h ⊢
    have hpos : 0 < tab.size.toNat := by
      rcases Nat.eq_zero_or_pos tab.size.toNat with k | k
      · exact absurd (by unfold Region.isEmpty; simpa using UInt32.toNat_inj.1 k) he
      · exact k
    have hlt : tab.sector.toNat < tab.sector.toNat + tableSectors tab := by unfold tableSectors; omega
    simp only [Region.offset_of_lt hpos, ok_bind, Nat.add_zero] at h ⊢
    rw [show 2048 * tab.sector.toNat = tab.sector.toNat * 2048 by omega] at h ⊢
    cases hb : dev.read (tab.sector.toNat * 2048) 2048 with
    | err e => exact ⟨_, Nat.le_refl _, hlt, fun j h1 h2 => by omega, hb⟩
    | panic => exact absurd hb (hr _ hlt).1
    | hang => exact absurd hb (hr _ hlt).2
    | ok b =>
      simp only [hb, ok_bind, pure_eq] at h ⊢
      have := scanDrain_outcome (dev := dev) fuel 
        (s := ⟨tab.sector.toNat, b, 0, tab.sector.toNat + (tab.size.toNat + 2047) / 2048⟩) [] hr (by simp) h
      unfold From at this
      rw [if_neg (by simp only; unfold tableSectors at hlt; omega)] at this
      exact Within.onward hlt hb this

/-! ## The theorems -/

theorem good_not_bad {dev : Dev} {x : Nat} {l : List DirEnt} (h : GoodSector dev x l) : ¬ BadSector dev x := by
  rintro ⟨b, l', h1, h2⟩
  obtain ⟨b', h3, h4⟩ := h
  rw [h1] at h3; cases h3
  exact absurd (SectorEntries.det h2 h4).2 (by simp)

theorem good_not_err {dev : Dev} {x : Nat} {l : List DirEnt} {e : Err} (h : GoodSector dev x l) :
    dev.read (x * 2048) 2048 ≠ .err e := by
  obtain ⟨b', h3, _⟩ := h
  rw [h3]; nofun

theorem bad_not_err {dev : Dev} {x : Nat} {e : Err} (h : BadSector dev x) : dev.read (x * 2048) 2048 ≠ .err e := by
  obtain ⟨b', _, h3, _⟩ := h
  rw [h3]; nofun

/-- C12, exactly.  On a device whose reads return, a sequential scan of a table, however it is filled, does the following.
It lists the entries of the sectors of the table, in order, if all of them can be read and no sequence of entries comes to
one that crosses the end of its sector; it panics if the first sector for which this is not so can be read; and otherwise
it ends with the error of that sector. -/
theorem C12_scan_exactly {dev : Dev} (hd : dev.SaneBelow (2 ^ 44)) {tab : Region} {fuel : Nat}
    (hf : 128 * tableSectors tab + 1 ≤ fuel) :
    (∀ l, scanAll dev tab fuel = .ok l ↔ ∃ ls : List (List DirEnt), ls.length = tableSectors tab ∧ l = ls.flatten ∧
      ∀ j (hj : j < ls.length), GoodSector dev (tab.sector.toNat + j) ls[j]) ∧
    (scanAll dev tab fuel = .panic ↔ ∃ k, k < tableSectors tab ∧
      (∀ j, j < k → ∃ l, GoodSector dev (tab.sector.toNat + j) l) ∧ BadSector dev (tab.sector.toNat + k)) ∧
    (∀ e, scanAll dev tab fuel = .err e ↔ ∃ k, k < tableSectors tab ∧
      (∀ j, j < k → ∃ l, GoodSector dev (tab.sector.toNat + j) l) ∧
      dev.read ((tab.sector.toNat + k) * 2048) 2048 = .err e) := by
  have hnh := (C11_scan_terminates dev hd tab fuel hf).1
  have ho := scanAll_outcome hd hnh
  generalize scanAll dev tab fuel = r at hnh ho
  have okOf : ∀ l, r = .ok l → ∃ ls : List (List DirEnt), ls.length = tableSectors tab ∧ l = ls.flatten ∧
      ∀ j (hj : j < ls.length), GoodSector dev (tab.sector.toNat + j) ls[j] := by
    rintro l rfl
    obtain ⟨ls, h1, h2, h3⟩ := ho
    exact ⟨ls, by omega, by simpa using h2, h3⟩
  have panicOf : r = .panic → ∃ k, k < tableSectors tab ∧
      (∀ j, j < k → ∃ l, GoodSector dev (tab.sector.toNat + j) l) ∧ BadSector dev (tab.sector.toNat + k) := by
    rintro rfl
    obtain ⟨k, h1, h2, h3, h4⟩ := ho
    refine ⟨k - tab.sector.toNat, by omega, fun j hj => h3 _ (by omega) (by omega), ?_⟩
    rw [show tab.sector.toNat + (k - tab.sector.toNat) = k by omega]; exact h4
  have errOf : ∀ e, r = .err e → ∃ k, k < tableSectors tab ∧
      (∀ j, j < k → ∃ l, GoodSector dev (tab.sector.toNat + j) l) ∧
      dev.read ((tab.sector.toNat + k) * 2048) 2048 = .err e := by
    rintro e rfl
    obtain ⟨k, h1, h2, h3, h4⟩ := ho
    refine ⟨k - tab.sector.toNat, by omega, fun j hj => h3 _ (by omega) (by omega), ?_⟩
    rw [show tab.sector.toNat + (k - tab.sector.toNat) = k by omega]; exact h4
  refine ⟨fun l => ⟨okOf l, ?_⟩, ⟨panicOf, ?_⟩, fun e => ⟨errOf e, ?_⟩⟩
  · rintro ⟨ls, h1, rfl, h3⟩
    cases r with
    | hang => exact absurd rfl hnh
    | ok m =>
      obtain ⟨ms, g1, rfl, g3⟩ := okOf m rfl
      congr 2
      refine List.ext_getElem (by omega) fun j hj hj' => ?_
      obtain ⟨b, k1, k2⟩ := g3 j hj
      obtain ⟨b', k3, k4⟩ := h3 j hj'
      rw [k1] at k3; cases k3
      exact (SectorEntries.det k2 k4).1
    | panic =>
      obtain ⟨k, g1, g2, g3⟩ := panicOf rfl
      exact absurd g3 (good_not_bad (h3 k (by omega)))
    | err e =>
      obtain ⟨k, g1, g2, g3⟩ := errOf e rfl
      exact absurd g3 (good_not_err (h3 k (by omega)))
  · rintro ⟨k, h1, h2, h3⟩
    cases r with
    | hang => exact absurd rfl hnh
    | panic => rfl
    | ok m =>
      obtain ⟨ms, g1, _, g3⟩ := okOf m rfl
      exact absurd h3 (good_not_bad (g3 k (by omega)))
    | err e =>
      obtain ⟨k', g1, g2, g3⟩ := errOf e rfl
      rcases Nat.lt_trichotomy k k' with hk | hk | hk
      · obtain ⟨l, hl⟩ := g2 k hk; exact absurd h3 (good_not_bad hl)
      · subst hk; exact absurd g3 (bad_not_err h3)
      · obtain ⟨l, hl⟩ := h2 k' hk; exact absurd g3 (good_not_err hl)
  · rintro ⟨k, h1, h2, h3⟩
    cases r with
    | hang => exact absurd rfl hnh
    | ok m =>
      obtain ⟨ms, g1, _, g3⟩ := okOf m rfl
      exact absurd h3 (good_not_err (g3 k (by omega)))
    | panic =>
      obtain ⟨k', g1, g2, g3⟩ := panicOf rfl
      rcases Nat.lt_trichotomy k k' with hk | hk | hk
      · obtain ⟨l, hl⟩ := g2 k hk; exact absurd h3 (good_not_err hl)
      · subst hk; exact absurd h3 (bad_not_err g3)
      · obtain ⟨l, hl⟩ := h2 k' hk; exact absurd g3 (good_not_bad hl)
    | err e' =>
      obtain ⟨k', g1, g2, g3⟩ := errOf e' rfl
      rcases Nat.lt_trichotomy k k' with hk | hk | hk
      · obtain ⟨l, hl⟩ := g2 k hk; exact absurd h3 (good_not_err hl)
      · subst hk; rw [h3] at g3; cases g3; rfl
      · obtain ⟨l, hl⟩ := h2 k' hk; exact absurd g3 (good_not_err hl)

/-- Both cases occur: a sector with two entries is good, and the sector of `C12_scan_never_panics_false` is bad. -/
example : (∃ l, l.length = 2 ∧ GoodSector (fileDev (twoEntryImage ++ List.replicate 2016 0xff)) 0 l) ∧
    BadSector (fileDev crossingSector) 0 := by
  constructor
  · obtain ⟨ls, h1, h2, h3⟩ := ((C12_scan_exactly (fileDev_sane _ _) (tab := ⟨0, 32⟩) (fuel := 129) (by decide)).1 _).1
      (show scanAll (fileDev (twoEntryImage ++ List.replicate 2016 0xff)) ⟨0, 32⟩ 129 = .ok
        [{ node := { left := 4, right := 0, dirent := ⟨⟨1, 1⟩, 0x20, 1⟩ }, name := [98], offset := 0 },
         { node := { left := 0, right := 0, dirent := ⟨⟨2, 1⟩, 0x20, 1⟩ }, name := [97], offset := 16 }] by decide +kernel)
    have hl : ls.length = 1 := h1
    match ls, hl with
    | [l], _ =>
      refine ⟨l, ?_, h3 0 (by simp)⟩
      simp only [List.flatten_cons, List.flatten_nil, List.append_nil] at h2
      rw [← h2]; rfl
  · obtain ⟨k, h1, _, h3⟩ := (C12_scan_exactly (fileDev_sane _ _) (tab := ⟨0, 2048⟩) (fuel := 129) (by decide)).2.1.1
      C12_scan_never_panics_false
    have : k = 0 := by have : tableSectors ⟨0, 2048⟩ = 1 := rfl; omega
    subst this
    exact h3

end Xdvdfs.Props
