import Verif.Proof.PackReport

/-! # C27–C38: packing a source tree into an image

`createImage (fileEnv fs faults) fuel ⟨⟨img0, []⟩, []⟩ = (res, s')` is a pack of the source `fs` into a
file that initially contains `img0`: `res` is the outcome, `s'.dev.img` the final contents of the file,
`s'.dev.trace` the writes that were made and `s'.log` the progress reports.  `faults` decides which
writes fail and how much of a failing write still reaches the file. -/

namespace Xdvdfs.Props

open TabWriter Spec

/-! ## A sample source -/

/-- A directory `A` with one file, and a file `b.txt` beside it. -/
def sampleFs : SourceFs where
  readDir := fun p =>
    if p = [] then .ok [⟨['A'], true, 0⟩, ⟨['b', '.', 't', 'x', 't'], false, 5⟩]
    else if p = [['A']] then .ok [⟨['c'], false, 3⟩]
    else .err .io
  pathToString := slashPath
  copy := fun p off size =>
    if p = [['A'], ['c']] then ([([1, 2, 3].drop off).take size], .ok size)
    else if p = [['b', '.', 't', 'x', 't']] then
      ([([4, 5].drop off).take size, ([6, 7, 8].drop (off - 2)).take (size - 2)], .ok size)
    else ([], .err .io)

def sampleTree : List (Path × List FileEntry) :=
  [([], [⟨['A'], true, 0⟩, ⟨['b', '.', 't', 'x', 't'], false, 5⟩]), ([['A']], [⟨['c'], false, 3⟩])]

def sampleContent (p : Path) : Bytes :=
  if p = [['A'], ['c']] then [1, 2, 3] else [4, 5, 6, 7, 8]

theorem sample_dirs (p : Path) : DirOf sampleFs.readDir p ↔ p = [] ∨ p = [['A']] := by
  constructor
  · intro h
    induction h with
    | root => exact .inl rfl
    | @sub q l e h1 h2 h3 h4 ih =>
      rcases ih with rfl | rfl
      · cases h2
        simp only [List.mem_cons, List.not_mem_nil, or_false] at h3
        rcases h3 with rfl | rfl
        · exact .inr rfl
        · cases h4
      · cases h2
        simp only [List.mem_cons, List.not_mem_nil, or_false] at h3
        subst h3
        cases h4
  · rintro (rfl | rfl)
    · exact .root
    · exact DirOf.sub (p := []) (e := ⟨['A'], true, 0⟩) .root rfl (by simp) rfl

theorem sample_tree : TreeOf sampleFs.readDir sampleTree := by
  refine ⟨by decide, fun p l => ?_⟩
  rw [sample_dirs]
  simp only [sampleTree, List.mem_cons, List.not_mem_nil, or_false, Prod.mk.injEq]
  constructor
  · rintro (⟨rfl, rfl⟩ | ⟨rfl, rfl⟩)
    · exact ⟨.inl rfl, rfl⟩
    · exact ⟨.inr rfl, rfl⟩
  · rintro ⟨rfl | rfl, h⟩
    · cases h; exact .inl ⟨rfl, rfl⟩
    · cases h; exact .inr ⟨rfl, rfl⟩

theorem sample_entries (p : Path) (e : FileEntry) : EntryIn sampleFs.readDir p e ↔
    (p = [] ∧ e = ⟨['A'], true, 0⟩) ∨ (p = [] ∧ e = ⟨['b', '.', 't', 'x', 't'], false, 5⟩) ∨
    (p = [['A']] ∧ e = ⟨['c'], false, 3⟩) := by
  unfold EntryIn
  rw [sample_dirs]
  constructor
  · rintro ⟨rfl | rfl, l, h, he⟩
    · cases h
      simp only [List.mem_cons, List.not_mem_nil, or_false] at he
      rcases he with rfl | rfl <;> simp
    · cases h
      simp only [List.mem_cons, List.not_mem_nil, or_false] at he
      subst he; simp
  · rintro (⟨rfl, rfl⟩ | ⟨rfl, rfl⟩ | ⟨rfl, rfl⟩)
    · exact ⟨.inl rfl, _, rfl, by simp⟩
    · exact ⟨.inl rfl, _, rfl, by simp⟩
    · exact ⟨.inr rfl, _, rfl, by simp⟩

theorem sample_bounded : Bounded sampleFs := by
  intro p n
  simp only [sampleFs]
  split
  · simp; omega
  · split
    · simp; omega
    · simp

theorem sample_faithful : FaithfulTo sampleFs sampleContent := by
  intro p e k h hd _
  rcases (sample_entries p e).1 h with ⟨rfl, rfl⟩ | ⟨rfl, rfl⟩ | ⟨rfl, rfl⟩
  · cases hd
  · decide
  · decide

theorem sample_fits : Fits sampleTree := by
  refine ⟨by decide, ?_⟩
  intro x hx
  simp only [sampleTree, List.mem_cons, List.not_mem_nil, or_false] at hx
  rcases hx with rfl | rfl <;> simp

theorem sample_chars (s : Str) (h : ∀ c ∈ s, c ∈ ['A', 'b', '.', 't', 'x', 'c']) : ∀ c ∈ s, InCp1252 c := by
  intro c hc
  have := h c hc
  simp only [List.mem_cons, List.not_mem_nil, or_false] at this
  rcases this with rfl | rfl | rfl | rfl | rfl | rfl
  · exact ⟨65, by decide⟩
  · exact ⟨98, by decide⟩
  · exact ⟨46, by decide⟩
  · exact ⟨116, by decide⟩
  · exact ⟨120, by decide⟩
  · exact ⟨99, by decide⟩

theorem sample_storable : ∀ x ∈ sampleTree, StorableListing x.2 := by
  intro x hx
  simp only [sampleTree, List.mem_cons, List.not_mem_nil, or_false] at hx
  rcases hx with rfl | rfl
  · refine ⟨by simp [DistinctNames, SameName, upper, asciiUpper], ?_⟩
    intro e he
    simp only [List.mem_cons, List.not_mem_nil, or_false] at he
    rcases he with rfl | rfl
    · exact ⟨by decide, sample_chars _ (by decide), by simp⟩
    · exact ⟨by decide, sample_chars _ (by decide), by simp⟩
  · refine ⟨by simp [DistinctNames], ?_⟩
    intro e he
    simp only [List.mem_cons, List.not_mem_nil, or_false] at he
    subst he
    exact ⟨by decide, sample_chars _ (by decide), by simp⟩

theorem sample_few : ∀ x ∈ sampleTree, FewEntries x.2 := by
  intro x hx
  simp only [sampleTree, List.mem_cons, List.not_mem_nil, or_false] at hx
  rcases hx with rfl | rfl <;> (unfold FewEntries; decide)

/-! ## C33, C34: packing succeeds, packing returns -/

/-- C33: a source whose names are encodable, at most 255 bytes and distinct ignoring ASCII case,
whose files are below 4 GiB, whose directory tables stay within 256 KiB and which fits in `2^32`
sectors packs successfully on every device that works. -/
theorem C33_representable_tree_packs {σ : Type} (env : PackEnv σ) {tree : List (Path × List FileEntry)}
    (hL : Listable env.readDir) (ht : TreeOf env.readDir tree) (hF : Fits tree)
    (hS : ∀ x ∈ tree, StorableListing x.2) (hK : ∀ x ∈ tree, TableWithin256K x.2)
    (hdev : DeviceWorks env) {fuel : Nat} (hf : tree.length ≤ fuel) (s : PackState σ) :
    (createImage env fuel s).1 = .ok () :=
  createImage_works hdev (plan_succeeds env.pathToString hL ht hF hS hK hf) s

/-- A listing with few entries has a small table. -/
theorem few_within {l : List FileEntry} (h : FewEntries l) : TableWithin256K l := by
  intro items w n hn hb hd
  refine buildTable_small hb hd ?_
  have : items.map (fun it => elen it.name.length) = (items.map Item.name).map (fun n => elen n.length) := by
    rw [List.map_map]; rfl
  rw [this, hn, List.map_map]
  exact h

/-- C33 with an explicit bound on the size of directories: about 7 400 entries with names of 16
characters, or 900 entries with the longest names. -/
theorem C33_representable_tree_packs_few {σ : Type} (env : PackEnv σ) {tree : List (Path × List FileEntry)}
    (hL : Listable env.readDir) (ht : TreeOf env.readDir tree) (hF : Fits tree)
    (hS : ∀ x ∈ tree, StorableListing x.2) (hK : ∀ x ∈ tree, FewEntries x.2)
    (hdev : DeviceWorks env) {fuel : Nat} (hf : tree.length ≤ fuel) (s : PackState σ) :
    (createImage env fuel s).1 = .ok () :=
  C33_representable_tree_packs env hL ht hF hS (fun x hx => few_within (hK x hx)) hdev hf s

theorem writeChunks_works : ∀ (cs : List Bytes) (off : Nat) (f : ImgFile),
    (writeChunks (fun _ => none) off cs f).1 = .ok () := by
  intro cs
  induction cs with
  | nil => intro off f; rfl
  | cons c cs ih => intro off f; exact ih _ _

/-- A file without faults is a device that works, if the source can be read. -/
theorem fileEnv_works {fs : SourceFs} (h : ∀ p e, EntryIn fs.readDir p e → e.isDir = false →
    ∃ k, (fs.copy (p ++ [e.name]) 0 e.len).2 = .ok k) : DeviceWorks (fileEnv fs (fun _ => none)) := by
  refine ⟨fun off d s => rfl, fun p e o s he hd => ?_, fun s => ⟨_, rfl⟩⟩
  obtain ⟨k, hk⟩ := h p e he hd
  refine ⟨k, ?_⟩
  simp only [fileEnv]
  have := writeChunks_works (fs.copy (p ++ [e.name]) 0 e.len).1 o s
  rcases hw : writeChunks (fun _ => none) o (fs.copy (p ++ [e.name]) 0 e.len).1 s with ⟨r, f⟩
  rw [hw] at this
  simp only at this
  subst this
  exact hk

/-- The sample source with a copy operation that succeeds for every path. -/
def sampleFs' : SourceFs := { sampleFs with copy := fun p off size => ((sampleFs.copy p off size).1, .ok size) }

theorem sample'_bounded : Bounded sampleFs' := sample_bounded

theorem sample'_faithful : FaithfulTo sampleFs' sampleContent := by
  intro p e k h hd _
  rcases (sample_entries p e).1 h with ⟨rfl, rfl⟩ | ⟨rfl, rfl⟩ | ⟨rfl, rfl⟩
  · cases hd
  · decide
  · decide

theorem sample_listable : Listable sampleFs.readDir := by
  intro p hp
  rcases (sample_dirs p).1 hp with rfl | rfl
  · exact ⟨_, rfl⟩
  · exact ⟨_, rfl⟩

/-- The hypotheses of C33 hold for the sample: it packs. -/
theorem sample_packs (img0 : Bytes) :
    ∃ s', createImage (fileEnv sampleFs' (fun _ => none)) 2 ⟨⟨img0, []⟩, []⟩ = (.ok (), s') := by
  have := C33_representable_tree_packs_few (fileEnv sampleFs' (fun _ => none)) sample_listable sample_tree
    sample_fits sample_storable sample_few (fileEnv_works (fun _ e _ _ => ⟨e.len, rfl⟩)) (fuel := 2) (by decide)
    ⟨⟨img0, []⟩, []⟩
  rcases h : createImage (fileEnv sampleFs' (fun _ => none)) 2 ⟨⟨img0, []⟩, []⟩ with ⟨r, s'⟩
  rw [h] at this
  exact ⟨s', by rw [← this]⟩

/-- C34: for every finite source, whatever names and sizes it contains, packing returns success or
an error, if the image stays below `2^32` sectors and no single directory has millions of entries. -/
theorem C34_packing_returns {σ : Type} (env : PackEnv σ) {tree : List (Path × List FileEntry)}
    (ht : TreeOf env.readDir tree) (hF : Fits tree) (henv : EnvReturns env) :
    ∃ n, ∀ fuel, n ≤ fuel → ∀ s, (createImage env fuel s).1.Returns := by
  obtain ⟨n, hn⟩ := plan_cases env.pathToString henv.1 ht hF
  exact ⟨n, fun fuel hf s => createImage_returns henv (hn fuel hf) s⟩

theorem writeChunks_returns (faults : Faults) : ∀ (cs : List Bytes) (off : Nat) (f : ImgFile),
    (writeChunks faults off cs f).1.Returns := by
  intro cs
  induction cs with
  | nil => intro off f; exact ⟨by simp [writeChunks], by simp [writeChunks]⟩
  | cons c cs ih =>
    intro off f
    simp only [writeChunks, fileWrite]
    cases faults f.trace.length with
    | none => exact ih _ _
    | some m => exact ⟨by simp, by simp⟩

/-- A file with any faults never panics or hangs, if the source does not. -/
theorem fileEnv_returns {fs : SourceFs} (faults : Faults) (h : ∀ p, DirOf fs.readDir p → (fs.readDir p).Returns)
    (hc : ∀ p off n, (fs.copy p off n).2.Returns) : EnvReturns (fileEnv fs faults) := by
  refine ⟨h, fun off d s => ?_, fun p i o n s => ?_, fun s => ⟨by simp [fileEnv], by simp [fileEnv]⟩⟩
  · simp only [fileEnv, fileWrite]
    cases faults s.trace.length <;> exact ⟨by simp, by simp⟩
  · simp only [fileEnv]
    have := writeChunks_returns faults (fs.copy p i n).1 o s
    rcases hw : writeChunks faults o (fs.copy p i n).1 s with ⟨r, f⟩
    rw [hw] at this
    rcases this.cases with ⟨_, rfl⟩ | ⟨e, rfl⟩
    · exact hc p i n
    · exact ⟨by simp, by simp⟩

/-- A source with names that collide, one that may be too long and a file that is too large: packing
it returns, whatever the faults. -/
example (faults : Faults) (long : Str) :
    let fs : SourceFs := ⟨fun p => if p = [] then .ok [⟨['a'], false, 2 ^ 40⟩, ⟨['A'], false, 1⟩,
      ⟨long, false, 1⟩] else .err .io, slashPath, fun _ _ _ => ([], .err .io)⟩
    ∃ n, ∀ fuel, n ≤ fuel → ∀ s, (createImage (fileEnv fs faults) fuel s).1.Returns := by
  intro fs
  have hd : ∀ p, DirOf fs.readDir p ↔ p = [] := by
    intro p
    constructor
    · intro h
      induction h with
      | root => rfl
      | @sub q l e h1 h2 h3 h4 ih =>
        subst ih
        cases h2
        simp only [List.mem_cons, List.not_mem_nil, or_false] at h3
        rcases h3 with rfl | rfl | rfl <;> cases h4
    · rintro rfl; exact .root
  refine C34_packing_returns (tree := [([], [⟨['a'], false, 2 ^ 40⟩, ⟨['A'], false, 1⟩,
      ⟨long, false, 1⟩])]) _ ⟨by simp, fun p l => ?_⟩ ⟨?_, ?_⟩ (fileEnv_returns faults ?_ ?_)
  · simp only [List.mem_singleton, Prod.mk.injEq]
    show _ ↔ DirOf fs.readDir p ∧ _
    rw [hd]
    constructor
    · rintro ⟨rfl, rfl⟩; exact ⟨rfl, rfl⟩
    · rintro ⟨rfl, h⟩; cases h; exact ⟨rfl, rfl⟩
  · simp [dirSectors, sectorsFor]
  · simp
  · intro p hp
    rw [hd] at hp
    subst hp
    exact ⟨by simp [fs], by simp [fs]⟩
  · intro p off n; exact ⟨by simp [fs], by simp [fs]⟩

/-! ## C27: writes are disjoint -/

/-- C27: no two writes of a pack, successful or not, have a byte in common. -/
theorem C27_writes_disjoint {fs : SourceFs} (hb : Bounded fs) (faults : Faults) (fuel : Nat) (img0 : Bytes)
    {res : Res Unit} {s' : PackState ImgFile}
    (h : createImage (fileEnv fs faults) fuel ⟨⟨img0, []⟩, []⟩ = (res, s')) :
    s'.dev.trace.Pairwise ShareNoByte := by
  have hsh : ∀ {a b : Nat × Bytes}, DisjW a b → ShareNoByte a b := by
    rintro a b h ⟨i, h1, h2⟩
    unfold DisjW at h
    omega
  obtain ⟨h1, h2⟩ := pack_end fs faults fuel img0 h
  cases h2 with
  | early _ h2 => rw [h2]; exact .nil
  | data hS _ hT => exact (hT.disj (List.pairwise_append.1 (hS.all_disjoint hb)).1).imp hsh
  | desc hS _ hok htr hT =>
    rw [htr]
    obtain ⟨k1, k2, k3⟩ := List.pairwise_append.1 (hS.all_disjoint hb)
    refine List.pairwise_append.2 ⟨k1.imp hsh, (hT.disj k2).imp hsh, ?_⟩
    intro a ha b hb'
    obtain ⟨m, hm1, hm2⟩ := hT.mem hb'
    have := k3 a ha _ hm1
    apply hsh
    unfold DisjW at *
    simp only at *
    omega
  | pad hS hD hok htr hP _ =>
    rw [htr, List.append_cons]
    refine List.pairwise_append.2 ⟨(hS.all_disjoint hb).imp hsh, ?_, ?_⟩
    · apply (hP.disj ?_).imp hsh
      unfold padOf
      split <;> simp
    · rintro a ha b hb' ⟨i, ⟨a1, a2⟩, b1, b2⟩
      rw [torn_pad hP b hb'] at b1
      by_cases ha0 : a.2 = []
      · rw [ha0] at a2; simp at a2; omega
      · have := (applyTrace_length (img := img0)).2 a ha ha0
        omega

/-! ## C28–C30: a packed image reads back -/

/-- C28: after a successful pack the image opens as a volume, every file of the source is found under
its path in any letter case, and its data is the content of the source file. -/
theorem C28_files_read_back {fs : SourceFs} {content : Path → Bytes} (hb : Bounded fs)
    (hf : FaithfulTo fs content) {faults : Faults} {fuel : Nat} {img0 : Bytes} {s' : PackState ImgFile}
    (h : createImage (fileEnv fs faults) fuel ⟨⟨img0, []⟩, []⟩ = (.ok (), s')) :
    ∃ vol, readVolume (fileDev s'.dev.img) = .ok vol ∧
      FindsFiles (fileDev s'.dev.img) vol.root fs.readDir content ∧
      FindsDirs (fileDev s'.dev.img) vol.root fs.readDir := by
  obtain ⟨vol, h1, h2, h3, _⟩ := pack_success hb hf h
  exact ⟨vol, h1, h2, h3⟩

/-- C29: after a successful pack the recursive listing of the image is, up to order, the list of all
entries of the source with their parent paths, names, kinds and sizes, and reading the listed files
gives their contents. -/
theorem C29_listing_is_source {fs : SourceFs} {content : Path → Bytes} (hb : Bounded fs)
    (hf : FaithfulTo fs content) {faults : Faults} {fuel : Nat} {img0 : Bytes} {s' : PackState ImgFile}
    (h : createImage (fileEnv fs faults) fuel ⟨⟨img0, []⟩, []⟩ = (.ok (), s')) :
    ∃ vol, readVolume (fileDev s'.dev.img) = .ok vol ∧
      ListsTree (fileDev s'.dev.img) vol.root fs.readDir content := by
  obtain ⟨vol, h1, _, _, _, h2⟩ := pack_success hb hf h
  exact ⟨vol, h1, h2⟩

/-- C30: after a successful pack, looking up a path that is not in the source (ignoring ASCII case)
reports that it does not exist or that a component is not a directory. -/
theorem C30_absent_paths {fs : SourceFs} {content : Path → Bytes} (hb : Bounded fs)
    (hf : FaithfulTo fs content) {faults : Faults} {fuel : Nat} {img0 : Bytes} {s' : PackState ImgFile}
    (h : createImage (fileEnv fs faults) fuel ⟨⟨img0, []⟩, []⟩ = (.ok (), s')) :
    ∃ vol, readVolume (fileDev s'.dev.img) = .ok vol ∧
      FindsNothingElse (fileDev s'.dev.img) vol.root fs.readDir := by
  obtain ⟨vol, h1, _, _, h2, _⟩ := pack_success hb hf h
  exact ⟨vol, h1, h2⟩

/-- The hypotheses of C28–C30 hold for the sample source, and the conclusion is what one expects:
the file in the subdirectory is found under a path in other letter case, with its content. -/
example (img0 : Bytes) : ∃ s' vol d,
    createImage (fileEnv sampleFs' (fun _ => none)) 2 ⟨⟨img0, []⟩, []⟩ = (.ok (), s') ∧
    readVolume (fileDev s'.dev.img) = .ok vol ∧
    walkPath (fileDev s'.dev.img) vol.root ['/', 'a', '/', 'C'] 9 = .ok d ∧
    readDataAll (fileDev s'.dev.img) d.node.dirent = .ok [1, 2, 3] := by
  obtain ⟨s', h⟩ := sample_packs img0
  obtain ⟨vol, h1, h2, _⟩ := C28_files_read_back sample'_bounded sample'_faithful h
  obtain ⟨d, h3, _, _, h4⟩ := h2 [['A']] ⟨['c'], false, 3⟩ [['a'], ['C']] 9
    ((sample_entries _ _).2 (.inr (.inr ⟨rfl, rfl⟩))) rfl (by unfold SamePath; decide)
    (by intro s hs; simp at hs; rcases hs with rfl | rfl <;> decide)
    (by
      intro p l hp hl
      rcases (sample_dirs p).1 hp with rfl | rfl <;> cases hl <;> decide)
  exact ⟨s', vol, d, h, h1, h3, h4⟩

/-! ## C31, C32: what cannot be stored is rejected -/

/-- C31: if a pack succeeds, on any device, no directory of the source has two entries whose names
agree ignoring ASCII case. -/
theorem C31_duplicates_rejected {σ : Type} {env : PackEnv σ} {fuel : Nat} {s s' : PackState σ}
    (h : createImage env fuel s = (.ok (), s')) {p : Path} {l : List FileEntry} (hp : DirOf env.readDir p)
    (hl : env.readDir p = .ok l) : l.Pairwise (fun a b => ¬ SameName a.name b.name) := by
  obtain ⟨D, M, rootW, rootSize, next, recs, n', hS⟩ := shape_of_success h
  obtain ⟨_, h2, _, _⟩ := tables_ok hS.walked hS.tables
  obtain ⟨x, hx, rfl⟩ := List.mem_map.1 ((hS.walked.mem_iff p).2 hp)
  have := hS.walked.readDir (p := x.1) (l := x.2) hx
  rw [hl] at this
  cases this
  have := h2 x hx
  unfold DistinctNames at this
  rwa [List.pairwise_map] at this

/-- C32: if a pack succeeds, on any device, every entry of the source has a name of at most 255 bytes
in characters of Windows-1252, and every file is below 4 GiB. -/
theorem C32_unrepresentable_rejected {σ : Type} {env : PackEnv σ} {fuel : Nat} {s s' : PackState σ}
    (h : createImage env fuel s = (.ok (), s')) {p : Path} {e : FileEntry} (he : EntryIn env.readDir p e) :
    utf8Len e.name ≤ 255 ∧ (∀ c ∈ e.name, InCp1252 c) ∧ (e.isDir = false → e.len < 2 ^ 32) := by
  obtain ⟨D, M, rootW, rootSize, next, recs, n', hS⟩ := shape_of_success h
  obtain ⟨hT, _, _, hk⟩ := tables_ok hS.walked hS.tables
  obtain ⟨hp, l, hl, hel⟩ := he
  obtain ⟨w, hw⟩ := Option.isSome_iff_exists.1 ((hk p).2 hp)
  obtain ⟨l', k1, k2, k3⟩ := hT.built p w hw
  rw [hl] at k1
  cases k1
  obtain ⟨m1, m2⟩ := buildTable_names k3 (itemOf M p e) (List.mem_map_of_mem hel)
  exact ⟨m1, m2, (k2 e hel).2⟩

/-- The hypotheses of C31 and C32 hold for the sample source. -/
example (img0 : Bytes) : ∃ s', createImage (fileEnv sampleFs' (fun _ => none)) 2 ⟨⟨img0, []⟩, []⟩ = (.ok (), s') ∧
    DirOf sampleFs'.readDir [['A']] ∧ EntryIn sampleFs'.readDir [['A']] ⟨['c'], false, 3⟩ := by
  obtain ⟨s', h⟩ := sample_packs img0
  exact ⟨s', h, (sample_dirs _).2 (.inr rfl), (sample_entries _ _).2 (.inr (.inr ⟨rfl, rfl⟩))⟩

/-! ## C35: image length -/

/-- C35: after a successful pack the length of the file is a positive multiple of 64 KiB. -/
theorem C35_length_multiple {fs : SourceFs} {faults : Faults} {fuel : Nat} {img0 : Bytes} {s' : PackState ImgFile}
    (h : createImage (fileEnv fs faults) fuel ⟨⟨img0, []⟩, []⟩ = (.ok (), s')) :
    0 < s'.dev.img.length ∧ s'.dev.img.length % 65536 = 0 := by
  obtain ⟨h1, h2⟩ := pack_end fs faults fuel img0 h
  cases h2 with
  | early h2 _ => exact absurd rfl h2
  | data _ h2 _ => exact absurd rfl h2
  | desc _ h2 _ _ _ => exact absurd rfl h2
  | @pad D M rootW rootSize next recs n' P hS hD hok htr hP hlog =>
    obtain ⟨hP', _⟩ := hlog rfl
    rw [h1, htr, List.append_cons, applyTrace_append, hP']
    have hlen := (applyTrace_length (W := (planOps fs.pathToString D recs).flatMap (opWrites fs) ++
      [(32 * 2048, rootDesc 33 rootSize)]) (img := img0)).2 (32 * 2048, rootDesc 33 rootSize) (by simp)
      (by intro he; have := congrArg List.length he; rw [rootDesc_length] at this; cases this)
    simp only [rootDesc_length] at hlen
    generalize applyTrace img0 ((planOps fs.pathToString D recs).flatMap (opWrites fs) ++
      [(32 * 2048, rootDesc 33 rootSize)]) = img at hlen
    unfold padOf
    split
    · next hpos =>
      simp only [applyTrace, List.foldl_cons, List.foldl_nil]
      rw [writeAt_length, if_neg (by rw [List.replicate_eq_nil_iff]; omega), List.length_replicate]
      omega
    · simp only [applyTrace, List.foldl_nil]; omega

example (img0 : Bytes) : ∃ s', createImage (fileEnv sampleFs' (fun _ => none)) 2 ⟨⟨img0, []⟩, []⟩ = (.ok (), s') :=
  sample_packs img0

/-! ## C36: interrupted packs -/

/-- C36: when a pack into an empty file stops, at any write and however much of that write reached the
file, the file does not open as a volume or it holds the complete tree. -/
theorem C36_interrupted_pack {fs : SourceFs} {content : Path → Bytes} (hb : Bounded fs)
    (hf : FaithfulTo fs content) {faults : Faults} {fuel : Nat} {res : Res Unit} {s' : PackState ImgFile}
    (h : createImage (fileEnv fs faults) fuel ⟨⟨[], []⟩, []⟩ = (res, s')) :
    (∀ v, readVolume (fileDev s'.dev.img) ≠ .ok v) ∨
    HoldsTree (fileDev s'.dev.img) fs.readDir content :=
  pack_crash hb hf h

/-- Both ends of C36 occur: the complete pack of the sample holds the tree, and a pack whose first
write fails leaves a file that does not open. -/
example : (∃ s', createImage (fileEnv sampleFs' (fun _ => none)) 2 ⟨⟨[], []⟩, []⟩ = (.ok (), s') ∧
      HoldsTree (fileDev s'.dev.img) sampleFs'.readDir sampleContent) ∧
    (Bounded sampleFs' ∧ FaithfulTo sampleFs' sampleContent ∧
      ∀ v, readVolume (fileDev []) ≠ .ok v) := by
  obtain ⟨s', h⟩ := sample_packs []
  exact ⟨⟨s', h, pack_success sample'_bounded sample'_faithful h⟩, sample'_bounded, sample'_faithful,
    readVolume_zero (by simp)⟩

/-! ## C37: progress reports -/

/-- C37: a successful pack reports, for a list `dirs` of all directories of the source: the number of
entries of each of them; then the total numbers of entries and directories; then each directory and
each entry exactly once, in some order, with a sector; then completion.  The sector of the root is the
one in the volume descriptor and the sector of an entry is the one looked up in the image. -/
theorem C37_progress_reports {fs : SourceFs} {faults : Faults} {fuel : Nat} {img0 : Bytes} {s' : PackState ImgFile}
    (h : createImage (fileEnv fs faults) fuel ⟨⟨img0, []⟩, []⟩ = (.ok (), s')) :
    ∃ (dirs : List (Path × List FileEntry)) (sectorOf : Path → Nat) (placed : List Progress),
      TreeOf fs.readDir dirs ∧ (∀ p, DirOf fs.readDir p → p ∈ dirs.map Prod.fst) ∧
      s'.log = dirs.map (fun x => .discoveredDirectory x.2.length) ++
        [.fileCount (entryPaths dirs).length, .dirCount dirs.length] ++ placed ++ [.finishedPacking] ∧
      placed.Perm (dirs.map (fun x => .dirAdded (fs.pathToString x.1) (sectorOf x.1)) ++
        (entryPaths dirs).map (fun q => .fileAdded (fs.pathToString q) (sectorOf q))) ∧
      ∀ content, Bounded fs → FaithfulTo fs content →
        ∃ vol, readVolume (fileDev s'.dev.img) = .ok vol ∧ vol.root.sector.toNat = sectorOf [] ∧
        ∀ p e fuel, EntryIn fs.readDir p e → PlainPath (p ++ [e.name]) → SearchBudget fs.readDir fuel →
          ∃ d, walkPath (fileDev s'.dev.img) vol.root (slashPath (p ++ [e.name])) fuel = .ok d ∧
            d.node.dirent.data.sector.toNat = sectorOf (p ++ [e.name]) := by
  obtain ⟨h1, h2⟩ := pack_end fs faults fuel img0 h
  cases h2 with
  | early h2 _ => exact absurd rfl h2
  | data _ h2 _ => exact absurd rfl h2
  | desc _ h2 _ _ _ => exact absurd rfl h2
  | @pad D M rootW rootSize next recs n' P hS hD hok htr hP hlog =>
    obtain ⟨_, hlog⟩ := hlog rfl
    obtain ⟨hT, _, hnd, hk⟩ := tables_ok hS.walked hS.tables
    refine ⟨D, sectorIn (placedAll rootSize recs), (recs.flatMap (opsRec fs.pathToString)).flatMap opReports,
      ⟨hnd, fun p l => ?_⟩, fun p hp => (hS.walked.mem_iff p).2 hp, ?_, reports_of_shape hS, ?_⟩
    · constructor
      · intro hm
        exact ⟨(hS.walked.mem_iff p).1 (List.mem_map_of_mem (f := Prod.fst) hm), hS.walked.readDir hm⟩
      · rintro ⟨g1, g2⟩
        obtain ⟨x, hx, rfl⟩ := List.mem_map.1 ((hS.walked.mem_iff p).2 g1)
        have := hS.walked.readDir (p := x.1) (l := x.2) hx
        rw [g2] at this
        cases this
        exact hx
    · rw [hlog]
      have e1 : (discovered D).flatMap opReports = D.map (fun x => .discoveredDirectory x.2.length) := by
        unfold discovered
        rw [List.flatMap_map]
        exact List.map_eq_flatMap.symm
      have e2 : (D.map (fun d => d.2.length)).sum = (entryPaths D).length := by
        unfold entryPaths
        rw [List.length_flatMap]
        simp
      simp only [planOps, List.flatMap_append, List.flatMap_cons, e1, opReports, e2]
      simp
    · intro content hb hf
      have hat := pad_at hS hb (img0 := img0) (torn_pad hP)
      rw [← htr, ← h1] at hat
      have hI := hS.img hf hok (im := s'.dev.img) (fun w hw => hat w (by simp [hw]))
      have hroot : (([] : Path), rootListing rootSize) ∈ placedAll rootSize recs := by simp [placedAll]
      have hvol : readVolume (fileDev s'.dev.img) = .ok (VolDesc.new (regionOf (rootListing rootSize))) := by
        apply readVolume_holds
        have := (hat (32 * 2048, rootDesc 33 rootSize) (by simp)).holds
        rw [Nat.mul_comm]
        exact this
      refine ⟨_, hvol, ?_, ?_⟩
      · rw [sectorIn_of_mem hS.paths_nodup hroot]; rfl
      · intro p e fuel he hp hfu
        obtain ⟨d, l', g1, g2, g3, g4, g5, g6⟩ := hI.entry_lookup hS.allDistinct hroot rfl he
          (show SamePath (p ++ [e.name]) (p ++ [e.name]) from rfl) hp hfu
        refine ⟨d, g1, ?_⟩
        rw [g3, sectorIn_of_mem hS.paths_nodup g5]
        exact UInt32.toNat_ofNat_of_lt' (hI.small _ _ g5).1

/-- The hypothesis of C37 holds for the sample source; five things are reported as placed. -/
example (img0 : Bytes) : ∃ s' dirs, ∃ sectorOf : Path → Nat, ∃ placed : List Progress,
    createImage (fileEnv sampleFs' (fun _ => none)) 2 ⟨⟨img0, []⟩, []⟩ = (.ok (), s') ∧
    TreeOf sampleFs'.readDir dirs ∧
    placed.Perm (dirs.map (fun x => Progress.dirAdded (slashPath x.1) (sectorOf x.1)) ++
        (entryPaths dirs).map (fun q => .fileAdded (slashPath q) (sectorOf q))) := by
  obtain ⟨s', h⟩ := sample_packs img0
  obtain ⟨dirs, sectorOf, placed, h1, _, _, h2, _⟩ := C37_progress_reports h
  exact ⟨s', dirs, sectorOf, placed, h, h1, h2⟩

/-! ## C38: scanning the source -/

/-- C38: when scanning the source succeeds, the result contains exactly the directories of the
source with their listings, each after its parent, and each once if no listing repeats a name; one
report per directory is made and the device is not touched. -/
theorem C38_source_scanned {σ : Type} {env : PackEnv σ} {fuel : Nat} {s s' : PackState σ}
    {dirs : List (Path × List FileEntry)} (h : dirTree env fuel s = (.ok dirs, s')) :
    (∀ p, p ∈ dirs.map Prod.fst ↔ DirOf env.readDir p) ∧
    (∀ x ∈ dirs, env.readDir x.1 = .ok x.2) ∧
    (∀ pre p l post, dirs = pre ++ (p, l) :: post →
      p = [] ∨ ∃ q l' e, (q, l') ∈ pre ∧ e ∈ l' ∧ e.isDir = true ∧ p = q ++ [e.name]) ∧
    ((∀ x ∈ dirs, (x.2.map FileEntry.name).Nodup) → (dirs.map Prod.fst).Nodup) ∧
    s'.dev = s.dev ∧ s'.log = s.log ++ dirs.map (fun x => .discoveredDirectory x.2.length) := by
  obtain ⟨hW, h1, h2⟩ := dirTree_ok h
  refine ⟨hW.mem_iff, fun x hx => hW.readDir hx, ?_, fun hd => hW.nodup hd, h1, h2⟩
  intro pre p l post he
  rcases hW.parentFirst pre p l post he with h | h
  · left; simpa using h
  · exact .inr h

/-- Scanning the sample finds both directories. -/
example (s : PackState ImgFile) :
    (dirTree (fileEnv sampleFs (fun _ => none)) 2 s).1 = .ok sampleTree ∧
    ∀ x ∈ sampleTree, (x.2.map FileEntry.name).Nodup := ⟨rfl, by decide⟩

end Xdvdfs.Props
