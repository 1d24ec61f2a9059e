import Verif.Props.Pack

/-! # Sources with files in the root directory only, used as concrete cases -/

namespace Xdvdfs.Props

open TabWriter Spec

/-- A source with the given files in its root directory. -/
def flatFs (files : List (Str × Bytes)) : SourceFs where
  readDir := fun p => if p = [] then .ok (files.map (fun x => ⟨x.1, false, x.2.length⟩)) else .err .io
  pathToString := slashPath
  copy := fun p off size =>
    ([slice (((files.find? (fun x => p == [x.1])).map Prod.snd).getD []) off size], .ok size)

/-- The contents of its files. -/
def flatContent (files : List (Str × Bytes)) (p : Path) : Bytes :=
  ((files.find? (fun x => p == [x.1])).map Prod.snd).getD []

/-- Names that can be stored, and sizes for which every image stays small. -/
structure FlatOk (files : List (Str × Bytes)) : Prop where
  distinct : DistinctNames (files.map Prod.fst)
  names : ∀ x ∈ files, utf8Len x.1 ≤ 255 ∧ ∀ c ∈ x.1, InCp1252 c
  sizes : ∀ x ∈ files, x.2.length < 2 ^ 20
  few : files.length ≤ 800

theorem flat_dirs {files : List (Str × Bytes)} (p : Path) : DirOf (flatFs files).readDir p ↔ p = [] := by
  constructor
  · intro h
    induction h with
    | root => rfl
    | @sub q l e h1 h2 h3 h4 ih =>
      subst ih
      simp only [flatFs, if_true, Res.ok.injEq] at h2
      subst h2
      obtain ⟨x, _, rfl⟩ := List.mem_map.1 h3
      cases h4
  · rintro rfl; exact .root

def flatTree (files : List (Str × Bytes)) : List (Path × List FileEntry) :=
  [([], files.map (fun x => ⟨x.1, false, x.2.length⟩))]

theorem flat_tree (files : List (Str × Bytes)) : TreeOf (flatFs files).readDir (flatTree files) := by
  refine ⟨by simp [flatTree], fun p l => ?_⟩
  rw [flat_dirs]
  simp only [flatTree, List.mem_singleton, Prod.mk.injEq, flatFs]
  constructor
  · rintro ⟨rfl, rfl⟩; exact ⟨rfl, rfl⟩
  · rintro ⟨rfl, h⟩
    simp only [if_true, Res.ok.injEq] at h
    exact ⟨rfl, h.symm⟩

theorem flat_entries {files : List (Str × Bytes)} (p : Path) (e : FileEntry) :
    EntryIn (flatFs files).readDir p e ↔ p = [] ∧ ∃ x ∈ files, e = ⟨x.1, false, x.2.length⟩ := by
  unfold EntryIn
  rw [flat_dirs]
  constructor
  · rintro ⟨rfl, l, h, he⟩
    simp only [flatFs, if_true, Res.ok.injEq] at h
    subst h
    obtain ⟨x, hx, rfl⟩ := List.mem_map.1 he
    exact ⟨rfl, x, hx, rfl⟩
  · rintro ⟨rfl, x, hx, rfl⟩
    exact ⟨rfl, _, rfl, List.mem_map_of_mem hx⟩

theorem flat_bounded (files : List (Str × Bytes)) : Bounded (flatFs files) := by
  intro p n
  simp only [flatFs, slice]
  simp only [List.flatten_cons, List.flatten_nil, List.append_nil, List.length_take, List.length_drop]
  omega

theorem flat_find {files : List (Str × Bytes)} (h : DistinctNames (files.map Prod.fst)) {x : Str × Bytes}
    (hx : x ∈ files) : files.find? (fun y => [x.1] == [y.1]) = some x := by
  induction files with
  | nil => cases hx
  | cons y ys ih =>
    rw [List.find?_cons]
    unfold DistinctNames at h ih
    simp only [List.map_cons, List.pairwise_cons] at h
    rcases List.mem_cons.1 hx with rfl | hx
    · simp
    · have hne : x.1 ≠ y.1 := by
        intro he
        exact h.1 x.1 (List.mem_map_of_mem hx) (by rw [he]; rfl)
      have hb : ([x.1] == [y.1]) = false := by simpa using hne
      rw [hb]
      exact ih h.2 hx

theorem flat_content {files : List (Str × Bytes)} (h : DistinctNames (files.map Prod.fst)) {x : Str × Bytes}
    (hx : x ∈ files) : flatContent files [x.1] = x.2 := by
  unfold flatContent
  rw [flat_find h hx]; rfl

theorem flat_faithful {files : List (Str × Bytes)} (h : DistinctNames (files.map Prod.fst)) :
    FaithfulTo (flatFs files) (flatContent files) := by
  intro p e k he _ _
  obtain ⟨rfl, x, hx, rfl⟩ := (flat_entries p e).1 he
  simp only [List.nil_append]
  rw [flat_content h hx]
  refine ⟨?_, rfl⟩
  simp only [flatFs]
  rw [flat_find h hx]
  simp [slice]

theorem flat_listable (files : List (Str × Bytes)) : Listable (flatFs files).readDir := by
  intro p hp
  rw [flat_dirs] at hp
  subst hp
  exact ⟨_, rfl⟩

theorem utf8_ge : ∀ (s : Str), s.length ≤ utf8Len s := by
  intro s
  induction s with
  | nil => simp
  | cons c cs ih =>
    have : 1 ≤ c.utf8Size := Char.utf8Size_pos c
    simp only [utf8Len, List.map_cons, List.sum_cons, List.length_cons] at ih ⊢
    omega

theorem sum_le {α : Type} {f : α → Nat} {b : Nat} : ∀ {l : List α}, (∀ x ∈ l, f x ≤ b) →
    (l.map f).sum ≤ b * l.length := by
  intro l
  induction l with
  | nil => intro _; simp
  | cons x xs ih =>
    intro h
    have h1 := h x List.mem_cons_self
    have h2 := ih (fun y hy => h y (List.mem_cons_of_mem _ hy))
    simp only [List.map_cons, List.sum_cons, List.length_cons, Nat.mul_add, Nat.mul_one]
    omega

theorem flat_storable {files : List (Str × Bytes)} (h : FlatOk files) :
    ∀ x ∈ flatTree files, StorableListing x.2 := by
  intro x hx
  simp only [flatTree, List.mem_singleton] at hx
  subst hx
  refine ⟨?_, ?_⟩
  · have := h.distinct
    simpa [Function.comp_def] using this
  · intro e he
    obtain ⟨x, hx, rfl⟩ := List.mem_map.1 he
    have hs := h.sizes x hx
    exact ⟨(h.names x hx).1, (h.names x hx).2, fun _ => by simp only; omega⟩

theorem flat_few {files : List (Str × Bytes)} (h : FlatOk files) : ∀ x ∈ flatTree files, FewEntries x.2 := by
  intro x hx
  simp only [flatTree, List.mem_singleton] at hx
  subst hx
  unfold FewEntries
  have := sum_le (f := fun e : FileEntry => (14 + e.name.length + 3) / 4 * 4) (b := 272)
    (l := files.map (fun x => (⟨x.1, false, x.2.length⟩ : FileEntry))) (by
      intro e he
      obtain ⟨x, hx, rfl⟩ := List.mem_map.1 he
      have h1 := (h.names x hx).1
      have h2 := utf8_ge x.1
      simp only; omega)
  rw [List.length_map] at this
  have := h.few
  simp only at *
  omega

theorem flat_fits {files : List (Str × Bytes)} (h : FlatOk files) : Fits (flatTree files) := by
  have hf := h.few
  refine ⟨?_, ?_⟩
  · simp only [flatTree, List.map_cons, List.map_nil, List.sum_cons, List.sum_nil, dirSectors, List.length_map]
    have := sum_le (f := fun e : FileEntry => sectorsFor e.len) (b := 513)
      (l := (files.map (fun x => (⟨x.1, false, x.2.length⟩ : FileEntry))).filter (fun e => !e.isDir)) (by
        intro e he
        obtain ⟨x, hx, rfl⟩ := List.mem_map.1 (List.mem_filter.1 he).1
        have h1 := h.sizes x hx
        simp only [sectorsFor]; omega)
    have hl := List.length_filter_le (fun e : FileEntry => !e.isDir)
      (files.map (fun x => (⟨x.1, false, x.2.length⟩ : FileEntry)))
    rw [List.length_map] at hl
    omega
  · intro x hx
    simp only [flatTree, List.mem_singleton] at hx
    subst hx
    simp only [List.length_map]; omega

/-- It packs. -/
theorem flat_packs {files : List (Str × Bytes)} (h : FlatOk files) (img0 : Bytes) :
    ∃ s', createImage (fileEnv (flatFs files) (fun _ => none)) 1 ⟨⟨img0, []⟩, []⟩ = (.ok (), s') := by
  have := C33_representable_tree_packs_few (fileEnv (flatFs files) (fun _ => none)) (flat_listable files)
    (flat_tree files) (flat_fits h) (flat_storable h) (flat_few h)
    (fileEnv_works (fun _ e _ _ => ⟨e.len, rfl⟩)) (fuel := 1) (by simp [flatTree]) ⟨⟨img0, []⟩, []⟩
  rcases hc : createImage (fileEnv (flatFs files) (fun _ => none)) 1 ⟨⟨img0, []⟩, []⟩ with ⟨r, s'⟩
  rw [hc] at this
  simp only at this
  subst this
  exact ⟨s', rfl⟩

end Xdvdfs.Props
