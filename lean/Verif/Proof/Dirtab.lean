import Verif.Model.Dirtab
import Verif.Proof.Codec
import Verif.Proof.Names
import Verif.Proof.AvlReorder

/-! # Helper lemmas about directory table serialization -/

namespace Xdvdfs

/-- Number of sectors allocated for `n` bytes. -/
def secs (n : Nat) : Nat := if n = 0 then 1 else (n + 2047) / 2048

theorem requiredSectors_val {n m : Nat} (h : requiredSectors n = .ok m) : m = secs n := by
  unfold requiredSectors at h
  unfold secs
  simp only [sectorSize] at h
  split at h
  · rename_i hn
    rw [if_neg hn]
    split at h
    · generalize hx : n / 2048 + (if n % 2048 > 0 then 1 else 0) = x at h
      split at h
      · cases h; split at hx <;> omega
      · cases h
    · cases h
  · rename_i hn
    rw [if_pos (by omega)]; cases h; rfl

theorem requiredSectors_ok {n : Nat} (h : n ≤ 2048 * (2 ^ 32 - 1)) :
    requiredSectors n = .ok (secs n) := by
  unfold requiredSectors secs
  simp only [sectorSize]
  by_cases hn : n = 0
  · simp [hn]
  · rw [if_pos hn, if_neg hn, if_pos (by omega), if_pos (by split <;> omega)]
    congr 1
    split <;> omega

theorem requiredSectors_iff {n : Nat} :
    requiredSectors n = .ok (secs n) ↔ n ≤ 2048 * (2 ^ 32 - 1) := by
  constructor
  · intro h
    unfold requiredSectors at h
    simp only [sectorSize] at h
    split at h
    · split at h
      · generalize hx : n / 2048 + (if n % 2048 > 0 then 1 else 0) = x at h
        split at h
        · split at hx <;> omega
        · cases h
      · cases h
    · omega
  · exact requiredSectors_ok

theorem allocate_eq {next bytes s n : Nat} (h : allocate next bytes = .ok (s, n)) :
    s = next ∧ n = next + secs bytes ∧ n < 2 ^ 32 := by
  unfold allocate at h
  rw [Res.bind_eq_ok] at h
  obtain ⟨m, hm, h⟩ := h
  have := requiredSectors_val hm
  subst this
  split at h
  · cases h; exact ⟨rfl, rfl, by assumption⟩
  · cases h

theorem secs_le {n m : Nat} (h : secs n ≤ m) : n ≤ 2048 * m := by
  unfold secs at h; split at h <;> omega

theorem le_secs (n : Nat) : n ≤ 2048 * secs n := secs_le (Nat.le_refl _)

theorem one_le_secs (n : Nat) : 1 ≤ secs n := by unfold secs; split <;> omega

theorem allocate_ok {next bytes : Nat} (h : next + secs bytes < 2 ^ 32) :
    allocate next bytes = .ok (next, next + secs bytes) := by
  unfold allocate
  rw [requiredSectors_ok (secs_le (by omega))]
  simp only [Res.ok_bind]
  rw [if_pos h]; rfl

/-- Gap inserted before an entry of length `l` that would start at `off`. -/
def pad (off l : Nat) : Nat :=
  if off % 2048 > 0 ∧ secs (off + l) > secs off then 2048 - off % 2048 else 0

theorem sectorAlign_ok {off l : Nat} (h : off + l ≤ 2048 * (2 ^ 32 - 1)) :
    sectorAlign off l = .ok (pad off l) := by
  unfold sectorAlign pad
  rw [requiredSectors_ok (by omega), requiredSectors_ok h]
  simp only [Res.ok_bind, sectorSize]
  split <;> rfl

/-- Where an entry of length `l` is placed when the previous one ends at `pos`. -/
def place (pos l : Nat) : Nat := pos + pad pos l

theorem place_spec {pos l : Nat} (hl : 0 < l) :
    (pos % 2048 + l ≤ 2048 ∨ pos % 2048 = 0 → place pos l = pos) ∧
    (2048 < pos % 2048 + l → pos % 2048 ≠ 0 → place pos l = (pos / 2048 + 1) * 2048) := by
  unfold place pad secs
  constructor
  · intro h
    rw [if_neg]
    · rfl
    · rintro ⟨h1, h2⟩
      rw [if_neg (by omega), if_neg (by omega)] at h2
      omega
  · intro h h0
    rw [if_pos]
    · omega
    · refine ⟨by omega, ?_⟩
      rw [if_neg (by omega), if_neg (by omega)]
      omega

theorem place_cases {pos l : Nat} (hl : 0 < l) (hl2 : l ≤ 2048) :
    (place pos l = pos ∧ pos % 2048 + l ≤ 2048) ∨
    (place pos l = (pos / 2048 + 1) * 2048 ∧ 2048 < pos % 2048 + l ∧ pos % 2048 ≠ 0) := by
  have ⟨h1, h2⟩ := place_spec (pos := pos) hl
  by_cases h : pos % 2048 + l ≤ 2048
  · left; exact ⟨h1 (.inl h), h⟩
  · by_cases h0 : pos % 2048 = 0
    · omega
    · right; exact ⟨h2 (by omega) h0, by omega, h0⟩

/-- Offsets of consecutive entries with the given lengths. -/
def offs : Nat → List Nat → List Nat
  | _, [] => []
  | pos, l :: ls => place pos l :: offs (place pos l + l) ls

/-- End of the last entry. -/
def total : Nat → List Nat → Nat
  | pos, [] => pos
  | pos, l :: ls => total (place pos l + l) ls

theorem le_place (pos l : Nat) : pos ≤ place pos l := by unfold place; omega

theorem le_total (pos : Nat) (ls : List Nat) : pos ≤ total pos ls := by
  induction ls generalizing pos with
  | nil => simp [total]
  | cons l ls ih => have := ih (place pos l + l); have := le_place pos l; simp only [total]; omega

theorem offs_length (pos : Nat) (ls : List Nat) : (offs pos ls).length = ls.length := by
  induction ls generalizing pos with
  | nil => rfl
  | cons l ls ih => simp [offs, ih]

theorem place_mod4 {pos l : Nat} (h : pos % 4 = 0) : place pos l % 4 = 0 := by
  unfold place pad; split <;> omega

theorem encodeName_len {s : Str} {b : Bytes} (h : encodeName s = .ok b) : b.length ≤ 255 := by
  unfold encodeName at h
  split at h
  · split at h
    · cases h; assumption
    · cases h
  · cases h

/-- Length on disk of an entry whose encoded name has `n` bytes. -/
def elen (n : Nat) : Nat := (0xe + n + 3) / 4 * 4

theorem lenOnDisk_eq {s : Str} {b : Bytes} (h : encodeName s = .ok b) :
    lenOnDisk s = .ok (elen b.length) := by
  unfold lenOnDisk elen
  simp only [h, Res.ok_bind, Res.pure_eq]
  congr 1
  split <;> omega

theorem lenOnDisk_ok {s : Str} {l : Nat} (h : lenOnDisk s = .ok l) :
    ∃ b, encodeName s = .ok b ∧ l = elen b.length := by
  have h' := h
  unfold lenOnDisk at h
  rw [Res.bind_eq_ok] at h
  obtain ⟨b, hb, _⟩ := h
  rw [lenOnDisk_eq hb] at h'
  cases h'
  exact ⟨b, hb, rfl⟩

theorem elen_spec {n : Nat} (h : n ≤ 255) :
    elen n % 4 = 0 ∧ 14 + n ≤ elen n ∧ elen n < 14 + n + 4 ∧ 16 ≤ elen n ∧ elen n ≤ 272 := by
  unfold elen; omega

theorem lenOnDisk_spec {s : Str} {l : Nat} (h : lenOnDisk s = .ok l) :
    l % 4 = 0 ∧ 16 ≤ l ∧ l ≤ 272 := by
  obtain ⟨b, hb, rfl⟩ := lenOnDisk_ok h
  have := elen_spec (encodeName_len hb)
  omega

theorem entryBytes_length (n : DiskNode) (name : Bytes) :
    (TabWriter.entryBytes n name).length = elen name.length := by
  have : n.ser.length = 14 := by simp [DiskNode.ser, natLE]
  unfold TabWriter.entryBytes elen
  simp only [List.length_append, this]
  split
  · rw [List.length_replicate]; omega
  · simp; omega

/-! ## The loops compute `offs` and `total` -/

open TabWriter

theorem lensOnDisk_forall {ns : List (AvlNode DirData)} {ls : List Nat}
    (h : lensOnDisk ns = .ok ls) : ls.length = ns.length ∧
      ∀ l ∈ ls, l % 4 = 0 ∧ 16 ≤ l ∧ l ≤ 272 := by
  induction ns generalizing ls with
  | nil => simp only [lensOnDisk] at h; cases h; simp
  | cons n ns ih =>
    simp only [lensOnDisk, Res.bind_eq_ok] at h
    obtain ⟨l, hl, ls', hls, h⟩ := h
    cases h
    obtain ⟨h1, h2⟩ := ih hls
    refine ⟨by simp [h1], ?_⟩
    intro x hx
    rcases List.mem_cons.1 hx with rfl | hx
    · exact lenOnDisk_spec hl
    · exact h2 x hx

theorem offsetsLoop_eq (final : Nat) : ∀ (rest : List Nat) (l : Nat) (done : List Nat) (o : Nat),
    final = (l :: rest).getLast (by simp) → total (o + l) rest ≤ 2048 * (2 ^ 32 - 1) → o % 4 = 0 →
    (∀ x ∈ l :: rest, x % 4 = 0) →
    offsetsLoop final rest.length (done.length + 1) (done ++ o :: (l :: rest).dropLast)
      = .ok (done ++ o :: offs (o + l) rest) := by
  intro rest
  induction rest with
  | nil => intro l done o _ _ _ _; simp [offsetsLoop, offs]
  | cons l' rest ih =>
    intro l done o hf ht ho hm
    have hlm : l % 4 = 0 := hm l (by simp)
    simp only [total] at ht
    have h1 := le_total (place (o + l) l' + l') rest
    have h2 := le_place (o + l) l'
    have hget : Avl.vget (done ++ o :: (l :: l' :: rest).dropLast) (done.length + 1) = .ok l := by
      simp [Avl.vget, List.getElem?_append_right]
    have hprev : Avl.vget (done ++ o :: (l :: l' :: rest).dropLast) (done.length + 1 - 1) = .ok o := by
      simp [Avl.vget]
    have hset (x : Nat) (y : Nat) : Avl.vset (done ++ o :: y :: (l' :: rest).dropLast) (done.length + 1) x
        = .ok (done ++ o :: x :: (l' :: rest).dropLast) := by
      unfold Avl.vset
      rw [if_pos (by simp)]
      congr 1
      rw [List.set_append_right _ _ (by omega)]
      simp
    have hnext : (if done.length + 1 + 1 = (done ++ o :: (l + o) :: (l' :: rest).dropLast).length
        then (pure final : Res Nat)
        else Avl.vget (done ++ o :: (l + o) :: (l' :: rest).dropLast) (done.length + 1 + 1)) = .ok l' := by
      cases rest with
      | nil => rw [if_pos (by simp), hf]; rfl
      | cons x xs =>
        rw [if_neg (by simp; omega)]
        simp only [Avl.vget, Nat.add_assoc, List.dropLast_cons_cons]
        rw [List.getElem?_append_right (by omega)]
        simp
    simp only [List.length_cons, offsetsLoop, hprev, hget, Res.ok_bind]
    rw [List.dropLast_cons_cons, hset]
    simp only [Res.ok_bind, hnext]
    rw [Nat.add_comm l o, sectorAlign_ok (by omega)]
    simp only [Res.ok_bind, hset]
    have hp := place_mod4 (pos := o + l) (l := l') (by omega)
    have hp' : o + l + pad (o + l) l' = place (o + l) l' := rfl
    rw [hp', hp]
    simp only [beq_self_eq_true, Res.assert_true, Res.ok_bind]
    have := ih l' (done ++ [o]) (place (o + l) l') (by rw [hf]; simp) (by omega) hp
      (fun x hx => hm x (by simp at hx ⊢; exact .inr hx))
    simp only [List.length_append, List.length_cons, List.length_nil, List.append_assoc,
      List.cons_append, List.nil_append, Nat.zero_add] at this
    rw [this, offs]

theorem entryOffsets_eq {lens : List Nat} (hne : lens ≠ [])
    (ht : total 0 lens ≤ 2048 * (2 ^ 32 - 1)) (hm : ∀ x ∈ lens, x % 4 = 0) :
    entryOffsets lens = .ok (offs 0 lens) := by
  cases lens with
  | nil => exact absurd rfl hne
  | cons l rest =>
    have hr : rotateRight1 (l :: rest) = (l :: rest).getLast (by simp) :: (l :: rest).dropLast := by
      unfold rotateRight1
      rw [List.getLast?_eq_some_getLast (by simp)]
    unfold entryOffsets
    simp only [hr]
    simp only [Avl.vget, Avl.vset, List.length_cons, List.getElem?_cons_zero, Res.unwrap_some,
      Res.ok_bind]
    rw [if_pos (by omega)]
    simp only [List.set_cons_zero, Res.ok_bind, List.length_cons, List.length_dropLast]
    have hp0 : place 0 l = 0 := by unfold place pad; simp
    simp only [total, hp0] at ht
    have := offsetsLoop_eq ((l :: rest).getLast (by simp)) rest l [] 0 rfl ht rfl hm
    simp only [List.length_nil, List.nil_append, Nat.zero_add] at this
    simp only [offs, hp0, Nat.zero_add]
    simpa using this

theorem lensOnDisk_ok_of {ns : List (AvlNode DirData)}
    (h : ∀ n ∈ ns, ∃ b, encodeName n.data.name = .ok b) :
    ∃ ls, lensOnDisk ns = .ok ls := by
  induction ns with
  | nil => exact ⟨[], rfl⟩
  | cons n ns ih =>
    obtain ⟨b, hb⟩ := h n (by simp)
    obtain ⟨ls, hls⟩ := ih (fun m hm => h m (by simp [hm]))
    exact ⟨elen b.length :: ls, by simp only [lensOnDisk, lenOnDisk_eq hb, hls, Res.ok_bind, Res.pure_eq]⟩

/-- `compute_size` in terms of the nodes visited. -/
theorem sizeLoop_ok {A : Avl DirData} : ∀ (is : List Nat) (ns : List (AvlNode DirData)) (acc s : Nat),
    is.map (fun i => A.tree[i]?) = ns.map some →
    sizeLoop A is acc = .ok s → ∃ ls, lensOnDisk ns = .ok ls ∧ total acc ls = s ∧ (ls ≠ [] → s < 2 ^ 32) := by
  intro is
  induction is with
  | nil =>
    intro ns acc s hmap h
    cases ns with
    | nil => simp only [sizeLoop] at h; cases h; exact ⟨[], rfl, rfl, by simp⟩
    | cons => simp at hmap
  | cons i is ih =>
    intro ns acc s hmap h
    cases ns with
    | nil => simp at hmap
    | cons n ns =>
      simp only [List.map_cons, List.cons.injEq] at hmap
      obtain ⟨hi, hmap⟩ := hmap
      simp only [sizeLoop, Avl.get, hi, Res.unwrap_some, Res.ok_bind, Res.bind_eq_ok] at h
      obtain ⟨l, hl, adj, hadj, h⟩ := h
      split at h
      · rename_i hlt
        obtain ⟨ls, h1, h2, h3⟩ := ih ns _ s hmap h
        have hl' := lenOnDisk_spec hl
        have hacc : acc + l ≤ 2048 * (2 ^ 32 - 1) := by omega
        rw [sectorAlign_ok hacc] at hadj
        cases hadj
        have e : place acc l + l = acc + l + pad acc l := by unfold place; omega
        refine ⟨l :: ls, by simp only [lensOnDisk, hl, h1, Res.ok_bind, Res.pure_eq], ?_, ?_⟩
        · simp only [total]; rw [e]; exact h2
        · intro _
          cases ls with
          | nil => simp only [total] at h2; omega
          | cons => exact h3 (by simp)
      · cases h

theorem sizeLoop_eq {A : Avl DirData} : ∀ (is : List Nat) (ns : List (AvlNode DirData)) (acc : Nat)
    (ls : List Nat), is.map (fun i => A.tree[i]?) = ns.map some →
    lensOnDisk ns = .ok ls → total acc ls < 2 ^ 32 → sizeLoop A is acc = .ok (total acc ls) := by
  intro is
  induction is with
  | nil =>
    intro ns acc ls hmap hls ht
    cases ns with
    | nil => simp only [lensOnDisk] at hls; cases hls; rfl
    | cons => simp at hmap
  | cons i is ih =>
    intro ns acc ls hmap hls ht
    cases ns with
    | nil => simp at hmap
    | cons n ns =>
      simp only [List.map_cons, List.cons.injEq] at hmap
      obtain ⟨hi, hmap⟩ := hmap
      simp only [lensOnDisk, Res.bind_eq_ok] at hls
      obtain ⟨l, hl, ls', hls', h⟩ := hls
      cases h
      simp only [total] at ht ⊢
      have h1 := le_total (place acc l + l) ls'
      have h2 := le_place acc l
      have e : place acc l + l = acc + l + pad acc l := by unfold place; omega
      simp only [sizeLoop, Avl.get, hi, Res.unwrap_some, Res.ok_bind, hl]
      rw [sectorAlign_ok (by omega)]
      simp only [Res.ok_bind]
      rw [if_pos (by omega), ← e]
      exact ih ns _ ls' hmap hls' ht

/-! ## Serialized bytes -/

/-- One serialized entry. -/
structure Ent where
  node : DiskNode
  name : Bytes

def Ent.bytes (e : Ent) : Bytes := entryBytes e.node e.name
def Ent.len (e : Ent) : Nat := elen e.name.length

/-- The bytes of a table, given where the previous entry ended. -/
def tabBytes : Nat → List Ent → Bytes
  | _, [] => []
  | pos, e :: es =>
    List.replicate (pad pos e.len) 0xff ++ (e.bytes ++ tabBytes (place pos e.len + e.len) es)

theorem tabBytes_length (pos : Nat) (es : List Ent) :
    pos + (tabBytes pos es).length = total pos (es.map Ent.len) := by
  induction es generalizing pos with
  | nil => simp [tabBytes, total]
  | cons e es ih =>
    have := ih (place pos e.len + e.len)
    simp only [tabBytes, List.map_cons, total, List.length_append, List.length_replicate]
    have h2 : e.bytes.length = e.len := entryBytes_length _ _
    have : place pos e.len = pos + pad pos e.len := rfl
    omega

/-- Entries and listing of the nodes of a table, without the byte buffer. -/
def mkEnts (offsets : List Nat) : List (AvlNode DirData) → Nat → Res (List (Ent × Listing) × Nat)
  | [], next => .ok ([], next)
  | node :: nodes, next => do
    let name ← encodeName node.data.name
    let left ← linkOf offsets node.left
    let right ← linkOf offsets node.right
    let (sector, next) ← allocate next node.data.node.data.size.toNat
    let dn : DiskNode :=
      { left, right
        dirent := { data := { sector := UInt32.ofNat sector, size := node.data.node.data.size }
                    attrs := node.data.node.attrs
                    nameLen := UInt8.ofNat name.length } }
    let (rest, next) ← mkEnts offsets nodes next
    pure ((⟨dn, name⟩, { name := node.data.name, sector, size := node.data.node.data.size.toNat,
                         isDir := dn.dirent.isDirectory }) :: rest, next)

theorem fillGap_eq (bytes : Bytes) (l : Nat) :
    fillGap bytes (place bytes.length l) = bytes ++ List.replicate (pad bytes.length l) 0xff := by
  unfold fillGap place
  split
  · congr 2; omega
  · rename_i h
    have : pad bytes.length l = 0 := by omega
    simp [this]

theorem reprLoop_eq (offsets : List Nat) : ∀ (nodes : List (AvlNode DirData)) (idx next : Nat)
    (bytes : Bytes) (listing : List Listing) (lens : List Nat),
    lensOnDisk nodes = .ok lens → offsets.drop idx = offs bytes.length lens →
    reprLoop offsets nodes idx next bytes listing = (do
      let (es, next) ← mkEnts offsets nodes next
      pure (bytes ++ tabBytes bytes.length (es.map Prod.fst), listing ++ es.map Prod.snd, next)) := by
  intro nodes
  induction nodes with
  | nil => intro idx next bytes listing lens _ _; simp [reprLoop, mkEnts, tabBytes]
  | cons node nodes ih =>
    intro idx next bytes listing lens hls hoff
    simp only [lensOnDisk, Res.bind_eq_ok] at hls
    obtain ⟨l, hl, ls', hls', h⟩ := hls
    cases h
    obtain ⟨nb, hnb, rfl⟩ := lenOnDisk_ok hl
    simp only [offs] at hoff
    have hget : Avl.vget offsets idx = .ok (place bytes.length (elen nb.length)) := by
      have := congrArg (fun v => v[0]?) hoff
      simp only [List.getElem?_drop, Nat.add_zero, List.getElem?_cons_zero] at this
      simp [Avl.vget, this]
    simp only [reprLoop, mkEnts, hnb, Res.ok_bind, hget, fillGap_eq]
    cases hL : linkOf offsets node.left with
    | ok left =>
      cases hR : linkOf offsets node.right with
      | ok right =>
        cases hA : allocate next node.data.node.data.size.toNat with
        | ok sn =>
          obtain ⟨sector, next'⟩ := sn
          simp only [Res.ok_bind, List.length_append, List.length_replicate]
          have hpl : bytes.length + pad bytes.length (elen nb.length)
            = place bytes.length (elen nb.length) := rfl
          rw [hpl]
          simp only [beq_self_eq_true, Res.assert_true, Res.ok_bind]
          rw [ih _ _ _ _ ls' hls']
          · simp only [List.length_append, List.length_replicate, entryBytes_length]
            rw [hpl]
            cases mkEnts offsets nodes next' with
            | ok r =>
              obtain ⟨es, nx⟩ := r
              simp [tabBytes, Ent.bytes, Ent.len]
            | err e => rfl
            | panic => rfl
            | hang => rfl
          · have := congrArg (List.drop 1) hoff
            simp only [List.drop_drop, List.drop_succ_cons, List.drop_zero] at this
            simp only [List.length_append, List.length_replicate, entryBytes_length]
            rw [hpl, ← this]
        | err e => rfl
        | panic => rfl
        | hang => rfl
      | err e => rfl
      | panic => rfl
      | hang => rfl
    | err e => rfl
    | panic => rfl
    | hang => rfl

end Xdvdfs
