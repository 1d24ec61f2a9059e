import Verif.Proof.SourceTree
import Verif.Proof.PathMap

/-!
# The tables of all directories
-/

namespace Xdvdfs

open TabWriter Spec

/-- Size announced by the table at a path. -/
def subSize (M : PathMap TabWriter) (p : Path) : UInt32 :=
  match M.get p with
  | some w => match w.dirtabSize with
    | .ok n => UInt32.ofNat n
    | _ => 0
  | none => 0

/-- The item handed to the table writer for a directory entry. -/
def itemOf (M : PathMap TabWriter) (p : Path) (e : FileEntry) : Item :=
  { name := e.name, isDir := e.isDir,
    size := if e.isDir then subSize M (p ++ [e.name]) else UInt32.ofNat e.len }

/-- What an entry needs to be added. -/
def EntryOK (M : PathMap TabWriter) (p : Path) (e : FileEntry) : Prop :=
  (e.isDir = true → (M.get (p ++ [e.name])).isSome = true) ∧ (e.isDir = false → e.len < 2 ^ 32)

/-- All tables have a size. -/
def Sized (M : PathMap TabWriter) : Prop :=
  ∀ p w, M.get p = some w → ∃ n, w.dirtabSize = .ok n ∧ n < 2 ^ 32

theorem addEntry_eq {M : PathMap TabWriter} (hM : Sized M) {p : Path} {e : FileEntry}
    (h : EntryOK M p e) (w : TabWriter) : addEntry M p w e = addItem w (itemOf M p e) := by
  unfold addEntry addItem itemOf
  cases hd : e.isDir with
  | true =>
    obtain ⟨w', hw⟩ := Option.isSome_iff_exists.1 (h.1 hd)
    obtain ⟨n, h1, h2⟩ := hM _ _ hw
    simp only [if_true, fromBase, hw, Res.unwrap_some, Res.ok_bind, h1, subSize]
    rw [UInt32.toNat_ofNat_of_lt' h2]
  | false =>
    rw [if_neg (by simp), if_pos (h.2 hd), if_neg (by simp), if_neg (by simp)]

theorem addEntry_ok {M : PathMap TabWriter} {p : Path} {e : FileEntry} {w w' : TabWriter}
    (h : addEntry M p w e = .ok w') : EntryOK M p e := by
  unfold addEntry at h
  cases hd : e.isDir with
  | true =>
    refine ⟨fun _ => ?_, fun h => by simp [hd] at h⟩
    rw [if_pos hd] at h
    cases hg : M.get (p ++ [e.name]) with
    | some x => rfl
    | none => simp [fromBase, hg] at h
  | false =>
    refine ⟨fun h => by simp [hd] at h, fun _ => ?_⟩
    rw [if_neg (by simp [hd])] at h
    split at h
    · assumption
    · cases h

theorem addEntries_eq {M : PathMap TabWriter} (hM : Sized M) {p : Path} : ∀ {es : List FileEntry}
    {w : TabWriter}, (∀ e ∈ es, EntryOK M p e) →
    addEntries M p w es = addItems w (es.map (itemOf M p)) := by
  intro es
  induction es with
  | nil => intro w _; rfl
  | cons e es ih =>
    intro w h
    simp only [addEntries, List.map_cons, addItems, addEntry_eq hM (h e (by simp))]
    congr 1
    funext w'
    exact ih (fun x hx => h x (by simp [hx]))

theorem addEntries_ok {M : PathMap TabWriter} {p : Path} : ∀ {es : List FileEntry}
    {w w' : TabWriter}, addEntries M p w es = .ok w' → ∀ e ∈ es, EntryOK M p e := by
  intro es
  induction es with
  | nil => simp
  | cons e es ih =>
    intro w w' h
    simp only [addEntries, Res.bind_eq_ok] at h
    obtain ⟨w1, h1, h2⟩ := h
    intro x hx
    rcases List.mem_cons.1 hx with rfl | hx
    · exact addEntry_ok h1
    · exact ih h2 x hx

theorem buildTable_size {items : List Item} {w : TabWriter} (hb : buildTable items = .ok w) :
    ∃ n, w.dirtabSize = .ok n ∧ n < 2 ^ 32 := by
  obtain ⟨w0, T, hI, hc, ht⟩ := buildTable_inv hb
  unfold dirtabSize
  by_cases h : w.table.tree = []
  · exact ⟨2048, by rw [if_pos h], by omega⟩
  · rw [if_neg h]
    obtain ⟨_, lens, h1, h2, h3⟩ := computeSize_ok hI.wf hc
    rw [h2]
    exact ⟨_, rfl, h3⟩

/-- What holds of the finished map of tables. -/
structure TabsOK (rd : ReadDir) (M : PathMap TabWriter) : Prop where
  sorted : M.Sorted
  built : ∀ p w, M.get p = some w → ∃ l, rd p = .ok l ∧ (∀ e ∈ l, EntryOK M p e) ∧
    buildTable (l.map (itemOf M p)) = .ok w

theorem TabsOK.sized {rd : ReadDir} {M : PathMap TabWriter} (h : TabsOK rd M) : Sized M := by
  intro p w hw
  obtain ⟨l, _, _, h3⟩ := h.built p w hw
  exact buildTable_size h3

theorem Item.names_map (M : PathMap TabWriter) (p : Path) (l : List FileEntry) :
    (l.map (itemOf M p)).map Item.name = l.map FileEntry.name := by
  rw [List.map_map]; rfl

theorem buildTable_distinct {items : List Item} {w : TabWriter} (hb : buildTable items = .ok w) :
    DistinctNames (items.map Item.name) := by
  obtain ⟨w0, T, hI, _, _⟩ := buildTable_inv hb
  unfold DistinctNames
  rw [List.pairwise_map]
  refine hI.distinct.imp ?_
  intro a b h h'
  exact h ((cmp_eq_iff _ _).2 h'.symm)

theorem distinctNames_nodup {l : List Str} (h : DistinctNames l) : l.Nodup := by
  rw [List.nodup_iff_pairwise_ne]
  refine h.imp ?_
  intro a b hab he
  subst he
  exact hab rfl

theorem itemOf_insert {M : PathMap TabWriter} {p q : Path} {w : TabWriter} {e : FileEntry}
    (h : EntryOK M q e) (hp : M.get p = none) :
    itemOf (M.insert p w) q e = itemOf M q e ∧ EntryOK (M.insert p w) q e := by
  have hg : e.isDir = true → (M.insert p w).get (q ++ [e.name]) = M.get (q ++ [e.name]) := by
    intro hd
    rw [PathMap.get_insert, if_neg]
    intro he
    have := h.1 hd
    rw [he, hp] at this
    cases this
  constructor
  · unfold itemOf
    cases hd : e.isDir with
    | true => simp only [if_true, subSize, hg hd]
    | false => rfl
  · exact ⟨fun hd => by rw [hg hd]; exact h.1 hd, h.2⟩

theorem TabsOK.insert {rd : ReadDir} {M : PathMap TabWriter} (h : TabsOK rd M) {p : Path}
    {l : List FileEntry} {w0 w : TabWriter} (hrd : rd p = .ok l) (hp : M.get p = none)
    (h1 : addEntries M p TabWriter.new l = .ok w0) (h2 : w0.computeSize = .ok w) :
    TabsOK rd (M.insert p w) := by
  have hok := addEntries_ok h1
  have hnew : buildTable (l.map (itemOf M p)) = .ok w := by
    unfold buildTable
    rw [← addEntries_eq h.sized hok, h1]
    exact h2
  have hmap : ∀ {q : Path} {l' : List FileEntry}, (∀ e ∈ l', EntryOK M q e) →
      l'.map (itemOf (M.insert p w) q) = l'.map (itemOf M q) := by
    intro q l' hl
    apply List.map_congr_left
    intro e he
    exact (itemOf_insert (hl e he) hp).1
  refine ⟨PathMap.insert_sorted h.sorted, ?_⟩
  intro q v hq
  rw [PathMap.get_insert] at hq
  split at hq
  · next he =>
    subst he
    cases hq
    exact ⟨l, hrd, fun e he => (itemOf_insert (hok e he) hp).2, by rw [hmap hok]; exact hnew⟩
  · obtain ⟨l', k1, k2, k3⟩ := h.built q v hq
    exact ⟨l', k1, fun e he => (itemOf_insert (k2 e he) hp).2, by rw [hmap k2]; exact k3⟩

/-- Successful table construction implies distinct names in every listing (whatever the map). -/
theorem tablesLoop_distinct : ∀ {D : List (Path × List FileEntry)} {M M' : PathMap TabWriter},
    Sized M → tablesLoop D M = .ok M' → ∀ x ∈ D, DistinctNames (x.2.map FileEntry.name) := by
  intro D
  induction D with
  | nil => simp
  | cons y D ih =>
    obtain ⟨p, l⟩ := y
    intro M M' hM h
    simp only [tablesLoop, Res.bind_eq_ok] at h
    obtain ⟨w0, h1, w, h2, h3⟩ := h
    have hb : buildTable (l.map (itemOf M p)) = .ok w := by
      unfold buildTable
      rw [← addEntries_eq hM (addEntries_ok h1), h1]
      exact h2
    intro x hx
    rcases List.mem_cons.1 hx with rfl | hx
    · rw [← Item.names_map M p]; exact buildTable_distinct hb
    · refine ih ?_ h3 x hx
      intro q v hq
      rw [PathMap.get_insert] at hq
      split at hq
      · cases hq; exact buildTable_size hb
      · exact hM q v hq

theorem tablesLoop_ok {rd : ReadDir} : ∀ {D : List (Path × List FileEntry)} {M M' : PathMap TabWriter},
    TabsOK rd M → (∀ x ∈ D, rd x.1 = .ok x.2) → (D.map Prod.fst).Nodup →
    (∀ x ∈ D, M.get x.1 = none) → tablesLoop D M = .ok M' →
    TabsOK rd M' ∧ ∀ q, (M'.get q).isSome = true ↔ (M.get q).isSome = true ∨ q ∈ D.map Prod.fst := by
  intro D
  induction D with
  | nil => intro M M' h _ _ _ h'; cases h'; exact ⟨h, by simp⟩
  | cons y D ih =>
    obtain ⟨p, l⟩ := y
    intro M M' hM hrd hnd hnone h
    simp only [tablesLoop, Res.bind_eq_ok] at h
    obtain ⟨w0, h1, w, h2, h3⟩ := h
    rw [List.map_cons, List.nodup_cons] at hnd
    have hM1 := hM.insert (hrd (p, l) (by simp)) (hnone (p, l) (by simp)) h1 h2
    obtain ⟨k1, k2⟩ := ih hM1 (fun x hx => hrd x (by simp [hx])) hnd.2 (by
      intro x hx
      rw [PathMap.get_insert, if_neg]
      · exact hnone x (by simp [hx])
      · intro he
        exact hnd.1 (he ▸ List.mem_map_of_mem hx)) h3
    refine ⟨k1, ?_⟩
    intro q
    rw [k2 q, PathMap.get_insert]
    by_cases hq : q = p
    · subst hq; simp
    · simp [hq]

theorem TabsOK.nil (rd : ReadDir) : TabsOK rd [] where
  sorted := .nil
  built := by intro p w h; simp [PathMap.get] at h

/-- All that follows from a successful construction of the tables. -/
theorem tables_ok {rd : ReadDir} {D : List (Path × List FileEntry)} {M : PathMap TabWriter}
    (hW : Walked rd [[]] D) (h : tablesLoop D.reverse [] = .ok M) :
    TabsOK rd M ∧ (∀ x ∈ D, DistinctNames (x.2.map FileEntry.name)) ∧ (D.map Prod.fst).Nodup ∧
    ∀ q, (M.get q).isSome = true ↔ DirOf rd q := by
  have hdist : ∀ x ∈ D, DistinctNames (x.2.map FileEntry.name) := by
    intro x hx
    exact tablesLoop_distinct (by intro p w hw; simp [PathMap.get] at hw) h x (by simpa using hx)
  have hnd := hW.nodup (fun x hx => distinctNames_nodup (hdist x hx))
  obtain ⟨h1, h2⟩ := tablesLoop_ok (TabsOK.nil rd) (D := D.reverse)
    (by intro x hx; exact hW.readDir (List.mem_reverse.1 hx))
    (by rw [List.map_reverse]; exact (List.reverse_perm _).nodup_iff.2 hnd) (by intro x _; rfl) h
  refine ⟨h1, hdist, hnd, ?_⟩
  intro q
  rw [h2 q, ← hW.mem_iff]
  simp [PathMap.get]

/-- The tables exactly as a list. -/
theorem TabsOK.keys_perm {rd : ReadDir} {D : List (Path × List FileEntry)} {M : PathMap TabWriter}
    (h : TabsOK rd M) (hW : Walked rd [[]] D) (hnd : (D.map Prod.fst).Nodup)
    (hk : ∀ q, (M.get q).isSome = true ↔ DirOf rd q) : (M.map Prod.fst).Perm (D.map Prod.fst) := by
  rw [List.perm_ext_iff_of_nodup h.sorted.nodup hnd]
  intro q
  rw [hW.mem_iff, ← hk q]
  constructor
  · intro hq
    obtain ⟨x, hx, rfl⟩ := List.mem_map.1 hq
    rw [PathMap.get_of_mem h.sorted hx]; rfl
  · intro hq
    obtain ⟨w, hw⟩ := Option.isSome_iff_exists.1 hq
    exact List.mem_map_of_mem (f := Prod.fst) (PathMap.mem_of_get hw)

end Xdvdfs
