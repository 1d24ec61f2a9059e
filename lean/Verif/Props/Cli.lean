import Verif.Proof.CliPacked
import Verif.Props.Checksum

/-!
# The command line tool: C57, C58, C73, C74

A run of a command is modelled by the states of the host that can be seen while it runs, in order, and its outcome.
An interruption at any moment leaves one of these states, for some write failures.
-/

namespace Xdvdfs.Props

open TabWriter Spec

/-! ## C57 -/

theorem createArgs_cases (tasks : List (Str × Option Str)) :
    createArgs tasks = [] ∨ ∃ r, createArgs tasks = ['-', 'c'] :: r := by
  cases tasks with
  | nil => exact .inl rfl
  | cons x xs => exact .inr ⟨_, rfl⟩

theorem loop_last (d : Str) (acc : List (Str × Option Str)) :
    createTasksLoop [['-', 'c'], d] acc = createTasksLoop [] (acc ++ [(d, none)]) := by
  simp [createTasksLoop]

theorem loop_none (d : Str) (r : List Str) (acc : List (Str × Option Str)) :
    createTasksLoop (['-', 'c'] :: d :: ['-', 'c'] :: r) acc = createTasksLoop (['-', 'c'] :: r) (acc ++ [(d, none)]) := by
  simp [createTasksLoop]

theorem loop_some {d f : Str} (r : List Str) (acc : List (Str × Option Str)) (hf : f ≠ ['-', 'c']) :
    createTasksLoop (['-', 'c'] :: d :: f :: r) acc = createTasksLoop (f :: r) (acc ++ [(d, some f)]) := by
  simp [createTasksLoop, hf]

theorem loop_bad {f : Str} (r : List Str) (acc : List (Str × Option Str)) (hf : f ≠ ['-', 'c']) :
    createTasksLoop (f :: r) acc = .err .other := by
  match r with
  | [] => simp [createTasksLoop]
  | [d] => simp [createTasksLoop, hf]
  | d :: g :: r => simp [createTasksLoop, hf]

/-- C57 (part): every documented argument list in which only the first task names its output file is parsed into
exactly its tasks. -/
theorem C57_create_args_partial (dir : Str) (file : Option Str) (tasks : List (Str × Option Str))
    (h : ∀ x ∈ tasks, x.2 = none) :
    createTasks dir file (createArgs tasks) = .ok ((dir, file) :: tasks) := by
  unfold createTasks
  suffices hs : ∀ acc, createTasksLoop (createArgs tasks) acc = .ok (acc ++ tasks) from hs _
  induction tasks with
  | nil => intro acc; simp [createArgs, createTasksLoop]
  | cons x xs ih =>
    intro acc
    obtain ⟨d, f⟩ := x
    have hf : f = none := h (d, f) (by simp)
    subst hf
    have ih := ih (fun x hx => h x (by simp [hx])) (acc ++ [(d, none)])
    have he : createArgs ((d, none) :: xs) = ['-', 'c'] :: d :: createArgs xs := rfl
    rw [he]
    rcases createArgs_cases xs with h0 | ⟨r, h0⟩
    · rw [h0] at ih ⊢
      rw [loop_last, ih, List.append_assoc]; rfl
    · rw [h0] at ih ⊢
      rw [loop_none, ih, List.append_assoc]; rfl

/-- C57 is false: an argument list in which a later task names its output file is always rejected. -/
theorem C57_create_args_false (dir : Str) (file : Option Str) (tasks : List (Str × Option Str))
    (hplain : ∀ x ∈ tasks, x.2 ≠ some ['-', 'c']) (h : ∃ x ∈ tasks, x.2 ≠ none) :
    createTasks dir file (createArgs tasks) = .err .other := by
  unfold createTasks
  suffices hs : ∀ acc, createTasksLoop (createArgs tasks) acc = .err .other from hs _
  induction tasks with
  | nil => obtain ⟨x, hx, _⟩ := h; cases hx
  | cons x xs ih =>
    intro acc
    obtain ⟨d, f⟩ := x
    cases f with
    | none =>
      have h' : ∃ x ∈ xs, x.2 ≠ none := by
        obtain ⟨x, hx, hn⟩ := h
        rcases List.mem_cons.1 hx with rfl | hx
        · exact absurd rfl hn
        · exact ⟨x, hx, hn⟩
      have ih := ih (fun x hx => hplain x (by simp [hx])) h' (acc ++ [(d, none)])
      have he : createArgs ((d, none) :: xs) = ['-', 'c'] :: d :: createArgs xs := rfl
      rw [he]
      rcases createArgs_cases xs with h0 | ⟨r, h0⟩
      · rw [h0] at ih ⊢; rw [loop_last]; exact ih
      · rw [h0] at ih ⊢; rw [loop_none]; exact ih
    | some f =>
      have hf : f ≠ ['-', 'c'] := fun he => hplain (d, some f) (by simp) (by rw [he])
      have he : createArgs ((d, some f) :: xs) = ['-', 'c'] :: d :: f :: createArgs xs := rfl
      rw [he, loop_some _ _ hf, loop_bad _ _ hf]

/-- `-c a a.iso -c b -c d` is accepted, `-c a -c b b.iso` is not. -/
example : createTasks ['a'] (some ['a', '.', 'i', 's', 'o']) (createArgs [(['b'], none), (['d'], none)]) =
    .ok [(['a'], some ['a', '.', 'i', 's', 'o']), (['b'], none), (['d'], none)] := by decide

example : createTasks ['a'] none (createArgs [(['b'], some ['b', '.', 'i', 's', 'o'])]) = .err .other := by decide

/-! ## C58 -/

/-- C58 without `-D`: if the images do not get in each other's way, then at every moment of a rewrite, whatever fails,
every image still has its bytes under its own name or under the `.old` name. -/
theorem C58_kept_without_delete (t : Tool) (dir : Option HostPath) {images : List (HostPath × Faults)} {fs : HostFs}
    (hsep : images.Pairwise (fun a b => Separate dir a.1 b.1)) {src : HostPath} {faults : Faults} {img : Bytes}
    (hmem : (src, faults) ∈ images) (himg : IsFile fs src img) {st : HostFs}
    (h : st ∈ (rewriteAll t dir false images fs).1 ∨ (rewriteAll t dir false images fs).2 = .ok st) :
    IsFile st src img ∨ IsFile st (oldPath src) img := by
  refine rewriteAll_inv (P := fun st => IsFile st src img ∨ IsFile st (oldPath src) img) ?_ img (faults := faults)
    (fun a h => .inl h) ?_ images fs himg hmem hsep st h
  · intro a b hab ha
    unfold IsFile at ha ⊢
    rw [← hab src (by simp [touched]), ← hab (oldPath src) (by simp [touched])]
    exact ha
  · intro fs st hs hst
    rcases rewriteOne_kept hs hst with h | ⟨h, _⟩
    · exact .inr h
    · cases h

/-- C58 (part): if the images do not get in each other's way, and no error is lost when an output is closed, then at
every moment of a rewrite, with or without `-D`, whatever fails, every readable image still has its bytes under its own
name or under the `.old` name, or the new image is complete. -/
theorem C58_rewrite_partial (t : Tool) (ht : ∀ b, (t.split b).flatten = b) (dir : Option HostPath) (delete : Bool)
    {images : List (HostPath × Faults)} {fs : HostFs} (hsep : images.Pairwise (fun a b => Separate dir a.1 b.1))
    {src : HostPath} {faults : Faults} {img : Bytes} (hmem : (src, faults) ∈ images) (himg : IsFile fs src img)
    (hflush : ClosesCleanly t faults) {tree : Path → Res (List FileEntry)} {content : Path → Bytes}
    (hold : ImageHolds img t.wfuel tree content) {st : HostFs}
    (h : st ∈ (rewriteAll t dir delete images fs).1 ∨ (rewriteAll t dir delete images fs).2 = .ok st) :
    IsFile st src img ∨ IsFile st (oldPath src) img ∨
    ∃ out, IsFile st (rewriteDest dir src) out ∧ HoldsTree (fileDev out) tree content := by
  refine rewriteAll_inv (P := fun st => IsFile st src img ∨ IsFile st (oldPath src) img ∨
    ∃ out, IsFile st (rewriteDest dir src) out ∧ HoldsTree (fileDev out) tree content) ?_ img (faults := faults)
    (fun a h => .inl h) ?_ images fs himg hmem hsep st h
  · intro a b hab ha
    unfold IsFile at ha ⊢
    rw [← hab src (by simp [touched]), ← hab (oldPath src) (by simp [touched]),
      ← hab (rewriteDest dir src) (by simp [touched])]
    exact ha
  · intro fs st hs hst
    rcases rewriteOne_kept hs hst with h | ⟨_, _, h1, h2, _⟩
    · exact .inr (.inl h)
    · exact .inr (.inr ⟨_, h2, (packImage_success ht hold h1 (hflush img h1)).1⟩)

/-- C58 for the output of a rewrite: at every moment of the rewrite of one image the output is what was there before,
or does not open, or holds the complete tree. -/
theorem C58_output_complete_or_unreadable (t : Tool) (ht : ∀ b, (t.split b).flatten = b)
    {fs : HostFs} {src dst : HostPath} {faults : Faults} {img : Bytes} (himg : IsFile fs src img)
    {tree : Path → Res (List FileEntry)} {content : Path → Bytes}
    (hold : ImageHolds img t.wfuel tree content) {st : HostFs}
    (h : st ∈ (packPathImage t faults fs src dst).1 ∨ (packPathImage t faults fs src dst).2 = .ok st) :
    ∃ out, IsFile st dst out ∧
      ((∀ v, readVolume (fileDev out) ≠ .ok v) ∨ HoldsTree (fileDev out) tree content) := by
  obtain ⟨_, _, h3⟩ := (packPathImage_seen (t := t)).1 st h
  rcases h3 with h3 | ⟨img', h4, h3⟩
  · exact ⟨[], h3, .inl (readVolume_zero (by simp))⟩
  · unfold IsFile at himg
    rw [himg] at h4
    cases h4
    rcases h3 with h3 | h3
    · exact ⟨_, h3, packImage_crash ht hold _ (.inl rfl)⟩
    · exact ⟨_, h3, packImage_crash ht hold _ (.inr rfl)⟩

/-- C58 is false with `-D`: whenever a rewrite of one image in place succeeds, there is a failing write, the one that
empties the buffer when the output is closed, with which the command reports success, the original is deleted, and the
new image is not complete. -/
theorem C58_delete_false (t : Tool) (ht : ∀ b, (t.split b).flatten = b) {fs fs' : HostFs} {src : HostPath} {img : Bytes}
    (himg : IsFile fs src img) {tree : Path → Res (List FileEntry)} {content : Path → Bytes}
    (hold : ImageHolds img t.wfuel tree content)
    (hok : (rewriteAll t none true [(src, fun _ => none)] fs).2 = .ok fs') :
    ∃ faults st out, (rewriteAll t none true [(src, faults)] fs).2 = .ok st ∧ IsFile st src out ∧
      ¬ (HoldsTree (fileDev out) tree content ∧ out.length % 65536 = 0) ∧
      st (oldPath src) = none ∧ ∀ q, q ≠ src → q ≠ oldPath src → st q = fs q := by
  have hok' : ∃ st, (rewriteOne t none true (fun _ => none) fs src).2 = .ok st := by
    cases hr : (rewriteOne t none true (fun _ => none) fs src).2 with
    | ok st => exact ⟨st, rfl⟩
    | err e => simp [rewriteAll, hr] at hok
    | panic => simp [rewriteAll, hr] at hok
    | hang => simp [rewriteAll, hr] at hok
  obtain ⟨st0, hok'⟩ := hok'
  obtain ⟨img', fs1, fs2, ho, hp⟩ := rewriteOne_ok hok'
  have he := ho.file
  rw [show fs src = some (.file img) from himg] at he
  cases he
  obtain ⟨faults, h1, h2⟩ := packImage_loss ht hold hp
  have hrun := ho.result h1 true
  obtain ⟨e2, hnp, _, _⟩ := packOpen_ok ho.opened
  have hne : src ≠ oldPath src := fun h => hnp (by rw [← h]; exact List.prefix_refl _)
  refine ⟨faults, fun q => if q = oldPath src then none
    else if q = src then some (.file (packImage t img faults).2.img) else fs q,
    (packImage t img faults).2.img, ?_, ?_, h2, ?_, ?_⟩
  · simp only [rewriteAll, hrun, Res.ok.injEq]
    funext q
    simp only [if_true, rewriteDest]
    split
    · rfl
    · split <;> simp_all
  · unfold IsFile
    simp [hne]
  · simp
  · intro q q1 q2
    simp [q1, q2]

/-- C58 is false when one of the images is called what an earlier one is renamed to: rewriting the first destroys the
second before anything is written, whatever the options. -/
theorem C58_old_overwritten_false (t : Tool) (dir : Option HostPath) (delete : Bool) (f1 f2 : Faults) {fs : HostFs}
    {src : HostPath} {img other : Bytes} (himg : IsFile fs src img) (hoth : IsFile fs (oldPath src) other)
    (hne : other ≠ img) (honly : ∀ q, q ≠ oldPath src → ¬ IsFile fs q other)
    (hdir : fs (oldPath src).dropLast = some .dir) :
    ∃ st ∈ (rewriteAll t dir delete [(src, f1), (oldPath src, f2)] fs).1, ∀ q, ¬ IsFile st q other := by
  have hren : fs.rename src (oldPath src) =
      .ok (fun q => if q = oldPath src then some (.file img) else if q = src then none else fs q) := by
    unfold HostFs.rename
    unfold IsFile at himg hoth
    rw [himg, hoth]
    simp [hdir]
  refine ⟨fun q => if q = oldPath src then some (.file img) else if q = src then none else fs q, ?_, ?_⟩
  · have hmem : (fun q => if q = oldPath src then some (.file img) else if q = src then none else fs q) ∈
        (rewriteOne t dir delete f1 fs src).1 := by
      unfold IsFile at himg
      unfold rewriteOne
      simp only [himg, hren]
      split <;> first | (split <;> simp) | simp
    unfold rewriteAll
    simp only
    split
    · exact List.mem_append_left _ hmem
    all_goals exact hmem
  · intro q hq
    unfold IsFile at hq
    simp only at hq
    split at hq
    · cases hq; exact hne rfl
    · split at hq
      · cases hq
      · next h _ => exact honly q h hq

/-! ### Samples -/

/-- A tool that never flushes early and copies in one piece. -/
def sampleTool : Tool := ⟨fun _ _ => false, fun b => [b], 3, 2⟩

theorem sampleTool_split : ∀ b, (sampleTool.split b).flatten = b := by simp [sampleTool]

/-- Two different images with the same file name in two directories, and a third directory. -/
def twoHost (img1 img2 : Bytes) : HostFs := fun q =>
  if q = [] ∨ q = [['a']] ∨ q = [['b']] ∨ q = [['o']] then some .dir
  else if q = [['a'], ['x', '.', 'i', 's', 'o']] then some (.file img1)
  else if q = [['b'], ['x', '.', 'i', 's', 'o']] then some (.file img2)
  else none

def pathA : HostPath := [['a'], ['x', '.', 'i', 's', 'o']]
def pathB : HostPath := [['b'], ['x', '.', 'i', 's', 'o']]
def oldA : HostPath := [['a'], ['x', '.', 'o', 'l', 'd']]
def oldB : HostPath := [['b'], ['x', '.', 'o', 'l', 'd']]
def destX : HostPath := [['x', '.', 'i', 's', 'o']]

theorem oldPath_A : oldPath pathA = oldA := by decide
theorem oldPath_B : oldPath pathB = oldB := by decide
theorem dest_A : rewriteDest (some [['o']]) pathA = destX := by decide
theorem dest_B : rewriteDest (some [['o']]) pathB = destX := by decide

def oneFile : List (Str × Bytes) := [(['q'], [7])]

theorem oneFile_ok : FlatOk oneFile :=
  ascii_flatOk (by unfold DistinctNames; decide) (by decide) (by decide) (by decide)

theorem oneFile_scanFuel : ScanFuel (flatFs oneFile).readDir 3 := by
  intro p l hp hl
  rw [flat_dirs] at hp
  subst hp
  cases hl
  decide

theorem oneFile_latin1 : ∀ x ∈ flatTree oneFile, ∀ e ∈ x.2, Latin1 e.name := by
  intro x hx e he
  simp only [flatTree, oneFile, List.mem_singleton, List.map_cons, List.map_nil] at hx
  subst hx
  simp only [List.mem_singleton] at he
  subst he
  intro c hc
  simp only [List.mem_singleton] at hc
  subst hc
  decide

/-- No image holds both sample trees. -/
theorem sample_ne_oneFile {dev : Dev} (h1 : HoldsTree dev sampleFs'.readDir sampleContent)
    (h2 : HoldsTree dev (flatFs oneFile).readDir (flatContent oneFile)) : False := by
  obtain ⟨a1, a2, n1, n2, m1, m2, hl⟩ := holdsTree_length h1 h2
  have e1 : ([], ⟨['A'], true, 0⟩) ∈ a1 := (m1 _ _).2 ((sample_entries _ _).2 (.inl ⟨rfl, rfl⟩))
  have e2 : ([['A']], ⟨['c'], false, 3⟩) ∈ a1 := (m1 _ _).2 ((sample_entries _ _).2 (.inr (.inr ⟨rfl, rfl⟩)))
  have hall : ∀ x ∈ a2, x = ([], ⟨['q'], false, 1⟩) := by
    intro x hx
    obtain ⟨p, e⟩ := x
    obtain ⟨rfl, y, hy, rfl⟩ := (flat_entries p e).1 ((m2 p e).1 hx)
    simp only [oneFile, List.mem_singleton] at hy
    subst hy
    rfl
  have h2 : a2.length ≤ 1 := by
    match a2, n2, hall with
    | [], _, _ => simp
    | [_], _, _ => simp
    | x :: y :: r, n2, hall =>
      have hx := hall x (by simp)
      have hy := hall y (by simp)
      simp [hx, hy] at n2
  match a1, e1, e2 with
  | [], e1, _ => cases e1
  | [x], e1, e2 =>
    simp only [List.mem_singleton] at e1 e2
    rw [← e1] at e2
    cases e2
  | _ :: _ :: _, _, _ => simp only [List.length_cons] at hl; omega

/-- C58 is false for images of the same name in different directories: after a successful
`-r -D -d DIR a/x.iso b/x.iso`, without any failing write, neither the bytes of the first image nor an image with its
tree exists anywhere. -/
theorem C58_same_name_false : ∃ (t : Tool) (img1 img2 : Bytes) (st : HostFs) (tree : Path → Res (List FileEntry))
    (content : Path → Bytes), ImageHolds img1 t.wfuel tree content ∧ ClosesCleanly t (fun _ => none) ∧
    (rewriteAll t (some [['o']]) true [(pathA, fun _ => none), (pathB, fun _ => none)] (twoHost img1 img2)).2 = .ok st ∧
    ∀ q out, IsFile st q out → out ≠ img1 ∧ ¬ HoldsTree (fileDev out) tree content := by
  obtain ⟨s1, k1⟩ := sample_packs []
  obtain ⟨s2, k2⟩ := flat_packs oneFile_ok []
  have b2 := flat_bounded oneFile
  have f2 := flat_faithful oneFile_ok.distinct
  obtain ⟨tree1, i1, g1⟩ := packed_imageHolds sample'_bounded sample'_faithful k1 (wf := 3) sample_scanFuel
  obtain ⟨tree2, i2, g2⟩ := packed_imageHolds b2 f2 k2 (wf := 3) oneFile_scanFuel
  have w1 := packed_works sample'_bounded sample'_faithful k1 sample_tree sample_fits sample_storable sample_few
    sample_latin1 sampleTool sample_scanFuel (by decide)
  have w2 := packed_works b2 f2 k2 (flat_tree oneFile) (flat_fits oneFile_ok) (flat_storable oneFile_ok)
    (flat_few oneFile_ok) oneFile_latin1 sampleTool oneFile_scanFuel (by decide)
  have hout := g2 _ (packImage_success sampleTool_split i2 w2 (closesCleanly_none _ _ w2)).1
  obtain ⟨_, _, o1⟩ := opens_of (dir := some [['o']]) (fs := twoHost s1.dev.img s2.dev.img) (src := pathA) rfl
    (by rw [oldPath_A]; exact nofun) (by rw [oldPath_A]; rfl) (by rw [oldPath_A, dest_A]; decide)
    (by rw [dest_A]; exact nofun) (by rw [dest_A]; rfl)
  have r1 := o1.result w1 true
  rw [oldPath_A, dest_A] at r1
  obtain ⟨_, _, o2⟩ := opens_of (dir := some [['o']]) (fs := fun q =>
      if q = oldA then (if true then none else some (.file s1.dev.img))
      else if q = destX then some (.file (packImage sampleTool s1.dev.img (fun _ => none)).2.img)
      else if q = pathA then none else twoHost s1.dev.img s2.dev.img q) (src := pathB) (img := s2.dev.img) rfl
    (by rw [oldPath_B]; exact nofun) (by rw [oldPath_B]; rfl) (by rw [oldPath_B, dest_B]; decide)
    (by rw [dest_B]; exact nofun) (by rw [dest_B]; rfl)
  have r2 := o2.result w2 true
  rw [oldPath_B, dest_B] at r2
  refine ⟨sampleTool, s1.dev.img, s2.dev.img, fun q => if q = oldB then none
      else if q = destX then some (.file (packImage sampleTool s2.dev.img (fun _ => none)).2.img)
      else if q = pathB then none
      else if q = oldA then none
      else if q = pathA then none
      else twoHost s1.dev.img s2.dev.img q, tree1, sampleContent, i1, closesCleanly_none _, ?_, ?_⟩
  · rw [rewriteAll_two r1 r2, Res.ok.injEq]
    funext q
    by_cases h1 : q = oldB
    · simp [h1]
    by_cases h2 : q = destX
    · simp [h1, h2]
    by_cases h3 : q = pathB
    · simp [h1, h2, h3]
    by_cases h4 : q = oldA
    · simp [h1, h2, h3, h4]
    simp [h1, h2, h3, h4]
  · intro q out hq
    have hq' : out = (packImage sampleTool s2.dev.img (fun _ => none)).2.img := by
      unfold IsFile at hq
      simp only at hq
      by_cases h1 : q = oldB
      · rw [if_pos h1] at hq; cases hq
      rw [if_neg h1] at hq
      by_cases h2 : q = destX
      · rw [if_pos h2] at hq; cases hq; rfl
      rw [if_neg h2] at hq
      by_cases h3 : q = pathB
      · rw [if_pos h3] at hq; cases hq
      rw [if_neg h3] at hq
      by_cases h4 : q = oldA
      · rw [if_pos h4] at hq; cases hq
      rw [if_neg h4] at hq
      by_cases h5 : q = pathA
      · rw [if_pos h5] at hq; cases hq
      rw [if_neg h5] at hq
      unfold twoHost at hq
      split at hq
      · cases hq
      split at hq
      · exact absurd (by assumption) h5
      split at hq
      · exact absurd (by assumption) h3
      · cases hq
    subst hq'
    constructor
    · intro he
      rw [he] at hout
      exact sample_ne_oneFile (pack_success sample'_bounded sample'_faithful k1) hout
    · intro hT
      exact sample_ne_oneFile (g1 _ hT) hout

/-- Two images in different directories: the hypotheses of `C58_kept_without_delete` and `C58_rewrite_partial` hold for
both, and the rewrite succeeds. -/
example : ∃ img1 img2 tree1 tree2, ∃ st,
    [(pathA, fun _ => none), (pathB, fun _ => none)].Pairwise
      (fun a b : HostPath × Faults => Separate none a.1 b.1) ∧
    IsFile (twoHost img1 img2) pathA img1 ∧ IsFile (twoHost img1 img2) pathB img2 ∧ img1 ≠ img2 ∧
    ClosesCleanly sampleTool (fun _ => none) ∧ ImageHolds img1 sampleTool.wfuel tree1 sampleContent ∧
    ImageHolds img2 sampleTool.wfuel tree2 (flatContent oneFile) ∧
    (rewriteAll sampleTool none true [(pathA, fun _ => none), (pathB, fun _ => none)] (twoHost img1 img2)).2 =
      .ok st := by
  obtain ⟨s1, k1⟩ := sample_packs []
  obtain ⟨s2, k2⟩ := flat_packs oneFile_ok []
  have b2 := flat_bounded oneFile
  have f2 := flat_faithful oneFile_ok.distinct
  obtain ⟨tree1, i1, g1⟩ := packed_imageHolds sample'_bounded sample'_faithful k1 (wf := 3) sample_scanFuel
  obtain ⟨tree2, i2, g2⟩ := packed_imageHolds b2 f2 k2 (wf := 3) oneFile_scanFuel
  have w1 := packed_works sample'_bounded sample'_faithful k1 sample_tree sample_fits sample_storable sample_few
    sample_latin1 sampleTool sample_scanFuel (by decide)
  have w2 := packed_works b2 f2 k2 (flat_tree oneFile) (flat_fits oneFile_ok) (flat_storable oneFile_ok)
    (flat_few oneFile_ok) oneFile_latin1 sampleTool oneFile_scanFuel (by decide)
  obtain ⟨_, _, o1⟩ := opens_of (dir := none) (fs := twoHost s1.dev.img s2.dev.img) (src := pathA) rfl
    (by rw [oldPath_A]; exact nofun) (by rw [oldPath_A]; rfl) (by rw [oldPath_A]; decide)
    (by exact nofun) (by rfl)
  have r1 := o1.result w1 true
  rw [oldPath_A] at r1
  obtain ⟨_, _, o2⟩ := opens_of (dir := none) (fs := fun q =>
      if q = oldA then (if true then none else some (.file s1.dev.img))
      else if q = pathA then some (.file (packImage sampleTool s1.dev.img (fun _ => none)).2.img)
      else if q = pathA then none else twoHost s1.dev.img s2.dev.img q) (src := pathB) (img := s2.dev.img) rfl
    (by rw [oldPath_B]; exact nofun) (by rw [oldPath_B]; rfl) (by rw [oldPath_B]; decide)
    (by exact nofun) (by rfl)
  refine ⟨s1.dev.img, s2.dev.img, tree1, tree2, _, ?_, rfl, rfl, ?_, closesCleanly_none _, i1, i2,
    rewriteAll_two r1 (o2.result w2 true)⟩
  · simp only [List.pairwise_cons, List.mem_singleton, forall_eq, List.not_mem_nil, false_implies, implies_true,
      List.Pairwise.nil, and_true]
    unfold Separate
    decide
  · intro he
    have := pack_success sample'_bounded sample'_faithful k1
    rw [he] at this
    exact sample_ne_oneFile this (pack_success b2 f2 k2)

/-- The hypotheses of `C58_delete_false` hold for an image of the sample. -/
example : ∃ img tree fs', IsFile (twoHost img img) pathA img ∧ ImageHolds img sampleTool.wfuel tree sampleContent ∧
    (rewriteAll sampleTool none true [(pathA, fun _ => none)] (twoHost img img)).2 = .ok fs' := by
  obtain ⟨s1, k1⟩ := sample_packs []
  obtain ⟨tree1, i1, g1⟩ := packed_imageHolds sample'_bounded sample'_faithful k1 (wf := 3) sample_scanFuel
  have w1 := packed_works sample'_bounded sample'_faithful k1 sample_tree sample_fits sample_storable sample_few
    sample_latin1 sampleTool sample_scanFuel (by decide)
  obtain ⟨_, _, o1⟩ := opens_of (dir := none) (fs := twoHost s1.dev.img s1.dev.img) (src := pathA) rfl
    (by rw [oldPath_A]; exact nofun) (by rw [oldPath_A]; rfl) (by rw [oldPath_A]; decide)
    (by exact nofun) (by rfl)
  exact ⟨s1.dev.img, tree1, _, rfl, i1, rewriteAll_one (o1.result w1 true)⟩

/-- The hypotheses of `C58_old_overwritten_false` hold for `-r x.iso x.old`. -/
example (img other : Bytes) (h : other ≠ img) :
    let fs : HostFs := fun q => if q = [] then some .dir else if q = [['x', '.', 'i', 's', 'o']] then some (.file img)
      else if q = [['x', '.', 'o', 'l', 'd']] then some (.file other) else none
    IsFile fs [['x', '.', 'i', 's', 'o']] img ∧ IsFile fs (oldPath [['x', '.', 'i', 's', 'o']]) other ∧
    (∀ q, q ≠ oldPath [['x', '.', 'i', 's', 'o']] → ¬ IsFile fs q other) ∧
    fs (oldPath [['x', '.', 'i', 's', 'o']]).dropLast = some .dir := by
  intro fs
  have ho : oldPath [['x', '.', 'i', 's', 'o']] = [['x', '.', 'o', 'l', 'd']] := by decide
  refine ⟨rfl, by rw [ho]; rfl, ?_, by rw [ho]; rfl⟩
  rw [ho]
  intro q hq hf
  simp only [IsFile, fs] at hf
  by_cases h1 : q = []
  · simp [h1] at hf
  rw [if_neg h1] at hf
  by_cases h2 : q = [['x', '.', 'i', 's', 'o']]
  · rw [if_pos h2] at hf; cases hf; exact h rfl
  rw [if_neg h2, if_neg hq] at hf
  cases hf

/-! ## C73 -/

/-- C73 (part): after a successful rewrite without `-d`, or with `-d /`, the new image is where it is expected, and
complete. -/
theorem C73_rewrite_destination_partial (t : Tool) (ht : ∀ b, (t.split b).flatten = b) {dir : Option HostPath}
    (hdir : dir = none ∨ dir = some []) (delete : Bool) {images : List (HostPath × Faults)} {fs : HostFs}
    (hsep : images.Pairwise (fun a b => Separate dir a.1 b.1)) {src : HostPath} {faults : Faults} {img : Bytes}
    (hmem : (src, faults) ∈ images) (himg : IsFile fs src img) (hflush : ClosesCleanly t faults)
    {tree : Path → Res (List FileEntry)} {content : Path → Bytes} (hold : ImageHolds img t.wfuel tree content)
    {st : HostFs} (h : (rewriteAll t dir delete images fs).2 = .ok st) :
    ∃ out, IsFile st (expectedDest dir src) out ∧ HoldsTree (fileDev out) tree content := by
  obtain ⟨fs', st', h1, h2, h3⟩ := rewriteAll_done images fs himg hmem hsep st h
  obtain ⟨img', _, _, ho, hp⟩ := rewriteOne_ok h2
  have hi := ho.file
  rw [h1] at hi
  cases hi
  have hr := ho.result hp delete
  rw [h2] at hr
  simp only [Res.ok.injEq] at hr
  have hne : rewriteDest dir src ≠ oldPath src := by
    obtain ⟨_, hnp, _, _⟩ := packOpen_ok ho.opened
    exact fun he => hnp (by rw [he]; exact List.prefix_refl _)
  have hd : expectedDest dir src = rewriteDest dir src := by
    rcases hdir with rfl | rfl
    · rfl
    · simp only [expectedDest, rewriteDest]
      cases src.getLast? <;> simp
  refine ⟨_, ?_, (packImage_success ht hold hp (hflush img hp)).1⟩
  unfold IsFile
  rw [hd, h3 _ (by simp [touched]), hr]
  simp [hne]

/-- C73 is false: with `-d DIR` for any directory but the root, no file in `DIR` is created or changed, whatever
happens, except images that are themselves there; a successful rewrite leaves its output beside `DIR`. -/
theorem C73_rewrite_destination_false (t : Tool) {d : HostPath} (hd : d ≠ []) (delete : Bool)
    {images : List (HostPath × Faults)} {fs : HostFs} (hdir : fs d = some .dir)
    (himg : ∀ x ∈ images, ∃ img, IsFile fs x.1 img) {st : HostFs}
    (hout : ∀ x ∈ images, ¬ d <+: x.1 ∧ ¬ d <+: oldPath x.1)
    (h : st ∈ (rewriteAll t (some d) delete images fs).1 ∨ (rewriteAll t (some d) delete images fs).2 = .ok st) :
    (∀ q, d <+: q → st q = fs q) ∧
    ∀ src faults, images = [(src, faults)] → (rewriteAll t (some d) delete images fs).2 = .ok st →
      ∃ name out, src.getLast? = some name ∧ IsFile st (d.dropLast ++ [name]) out := by
  refine ⟨?_, ?_⟩
  · intro q hq
    refine rewriteAll_below hd hq images fs hdir ?_ h
    intro x hx
    obtain ⟨h1, h2⟩ := hout x hx
    exact ⟨fun he => h1 (by rw [he]; exact List.prefix_refl _), fun he => h2 (by rw [he]; exact List.prefix_refl _),
      fun he => h1 (by rw [← he]; exact hq), fun he => h2 (by rw [← he]; exact hq)⟩
  · intro src faults hi hok
    subst hi
    obtain ⟨img, hf⟩ := himg _ (List.mem_singleton.2 rfl)
    obtain ⟨fs', st', h1, h2, h3⟩ := rewriteAll_done (faults := faults) [(src, faults)] fs hf (by simp) (by simp) st hok
    obtain ⟨img', _, _, ho, hp⟩ := rewriteOne_ok h2
    have hr := ho.result hp delete
    rw [h2] at hr
    simp only [Res.ok.injEq] at hr
    have hne : rewriteDest (some d) src ≠ oldPath src := by
      obtain ⟨_, hnp, _, _⟩ := packOpen_ok ho.opened
      exact fun he => hnp (by rw [he]; exact List.prefix_refl _)
    have hst : st (rewriteDest (some d) src) = some (.file (packImage t img' faults).2.img) := by
      rw [h3 _ (by simp [touched]), hr]
      simp [hne]
    cases hl : src.getLast? with
    | none =>
      rw [List.getLast?_eq_none_iff] at hl
      subst hl
      have := ho.renamed
      simp [HostFs.rename, ho.file, oldPath, onFileName] at this
    | some name => exact ⟨name, _, rfl, by unfold IsFile; simpa [rewriteDest, hl] using hst⟩

/-- The hypotheses of `C73_rewrite_destination_false` hold, with a successful run. -/
example : ∃ img st, (twoHost img img) [['o']] = some .dir ∧ IsFile (twoHost img img) pathA img ∧
    ¬ [['o']] <+: pathA ∧ ¬ [['o']] <+: oldPath pathA ∧
    (rewriteAll sampleTool (some [['o']]) false [(pathA, fun _ => none)] (twoHost img img)).2 = .ok st := by
  obtain ⟨s1, k1⟩ := sample_packs []
  have w1 := packed_works sample'_bounded sample'_faithful k1 sample_tree sample_fits sample_storable sample_few
    sample_latin1 sampleTool sample_scanFuel (by decide)
  obtain ⟨_, _, o1⟩ := opens_of (dir := some [['o']]) (fs := twoHost s1.dev.img s1.dev.img) (src := pathA) rfl
    (by rw [oldPath_A]; exact nofun) (by rw [oldPath_A]; rfl) (by rw [oldPath_A, dest_A]; decide)
    (by rw [dest_A]; exact nofun) (by rw [dest_A]; rfl)
  exact ⟨s1.dev.img, _, rfl, rfl, by decide, by decide, rewriteAll_one (o1.result w1 false)⟩

/-! ## C74 -/

theorem packPathDir_seen {t : Tool} {sfs : SourceFs} {faults : Faults} {fs : HostFs} {src dst : HostPath} {st : HostFs}
    (h : st ∈ (packPathDir t sfs faults fs src dst).1 ∨ (packPathDir t sfs faults fs src dst).2 = .ok st) :
    ¬ src <+: dst ∧ ∀ q, q ≠ dst → st q = fs q := by
  unfold packPathDir at h
  cases hp : packOpen fs src dst with
  | ok fs1 =>
    obtain ⟨h1, h2, _, _⟩ := packOpen_ok hp
    rw [hp] at h
    refine ⟨h2, fun q hq => ?_⟩
    have hset : ∀ n, (fs1.set dst n) q = fs q := by intro n; rw [set_ne hq, h1, set_ne hq]
    have h1' : fs1 q = fs q := by rw [h1, set_ne hq]
    simp only at h
    cases hc : (packFile sfs (cliPolicy t.early) faults t.fuel).1 with
    | ok _ =>
      rw [hc] at h
      simp only [List.mem_cons, List.not_mem_nil, or_false, Res.ok.injEq] at h
      rcases h with (rfl | rfl | rfl) | rfl <;> first | exact h1' | exact hset _
    | err e =>
      rw [hc] at h
      simp only [List.mem_cons, List.not_mem_nil, or_false, reduceCtorEq] at h
      rcases h with rfl | rfl | rfl <;> first | exact h1' | exact hset _
    | panic =>
      rw [hc] at h
      simp only [List.mem_cons, List.not_mem_nil, or_false, reduceCtorEq] at h
      rcases h with rfl | rfl | rfl <;> first | exact h1' | exact hset _
    | hang =>
      rw [hc] at h
      simp only [List.mem_cons, List.not_mem_nil, or_false, reduceCtorEq] at h
      rcases h with rfl | rfl | rfl <;> first | exact h1' | exact hset _
  | err e => rw [hp] at h; simp at h
  | panic => rw [hp] at h; simp at h
  | hang => rw [hp] at h; simp at h

/-- C74: whatever `pack` is given and whatever fails, at every moment its source, and everything in it, is as it was,
and at most one file of the host has changed: the output. -/
theorem C74_source_unchanged (t : Tool) (read : HostFs → HostPath → SourceFs) (faults : Faults) (cwd : HostPath)
    (fs : HostFs) (src : HostPath) (dst : Option HostPath) {st : HostFs}
    (h : st ∈ (cmdPack t read faults cwd fs src dst).1 ∨ (cmdPack t read faults cwd fs src dst).2 = .ok st) :
    (∀ q, src <+: q → st q = fs q) ∧
    ∃ out, (∀ d, dst = some d → out = d) ∧ (dst = none → out.dropLast = cwd) ∧ ∀ q, q ≠ out → st q = fs q := by
  unfold cmdPack at h
  cases hn : fs src with
  | none => simp [hn] at h
  | some node =>
    rw [hn] at h
    simp only at h
    have key : ∀ d, (st ∈ (if node = .dir then packPathDir t (read fs src) faults fs src d else
        packPathImage t faults fs src d).1 ∨ (if node = .dir then packPathDir t (read fs src) faults fs src d else
        packPathImage t faults fs src d).2 = .ok st) → ¬ src <+: d ∧ ∀ q, q ≠ d → st q = fs q := by
      intro d h
      split at h
      · exact packPathDir_seen h
      · obtain ⟨h1, h2, _⟩ := packPathImage_seen.1 st h
        exact ⟨h1, h2⟩
    cases dst with
    | some d =>
      obtain ⟨h1, h2⟩ := key d h
      refine ⟨fun q hq => h2 q (fun he => h1 (by rw [← he]; exact hq)), d, fun d' hd' => by cases hd'; rfl,
        fun hc => by (cases hc), h2⟩
    | none =>
      simp only at h
      cases hd : defaultImagePath cwd fs src (node = .dir) with
      | ok d =>
        rw [hd] at h
        obtain ⟨h1, h2⟩ := key d h
        refine ⟨fun q hq => h2 q (fun he => h1 (by rw [← he]; exact hq)), d, nofun, fun _ => ?_, h2⟩
        unfold defaultImagePath at hd
        split at hd
        · cases hd
        · simp only at hd
          split at hd <;> cases hd <;> simp
      | err e => rw [hd] at h; simp at h
      | panic => rw [hd] at h; simp at h
      | hang => rw [hd] at h; simp at h

theorem withExtension_ext (name : Str) (isDir : Bool) :
    ∃ pre, ∀ ext, ext ≠ [] → withExtension name ext isDir = pre ++ ext := by
  unfold withExtension
  cases isDir with
  | false =>
    refine ⟨(splitExt name).1 ++ ['.'], fun ext h => ?_⟩
    simp [stdWithExtension, h]
  | true =>
    cases (splitExt name).2 with
    | none =>
      refine ⟨(splitExt name).1 ++ ['.'], fun ext h => ?_⟩
      simp [stdWithExtension, h]
    | some e =>
      refine ⟨(splitExt name).1 ++ '.' :: (e ++ ['.']), fun ext h => ?_⟩
      simp [stdWithExtension]

/-- C74: the output that `pack` chooses when none is given is in the working directory, is never the source, and is
refused as part of the source only if the working directory is. -/
theorem C74_default_output {cwd src out : HostPath} {fs : HostFs} {node : HostNode} (hsrc : fs src = some node)
    (h : defaultImagePath cwd fs src (node = .dir) = .ok out) :
    out.dropLast = cwd ∧ out ≠ src ∧ (src <+: out ↔ src <+: cwd) := by
  unfold defaultImagePath at h
  cases hl : src.getLast? with
  | none => rw [hl] at h; cases h
  | some name =>
    rw [hl] at h
    simp only at h
    have hsplit : src = src.dropLast ++ [name] := by
      rw [List.getLast?_eq_some_iff] at hl
      obtain ⟨ys, rfl⟩ := hl
      simp
    obtain ⟨pre, hpre⟩ := withExtension_ext name (node = .dir)
    have hne : out ≠ src ∧ ∃ n, out = cwd ++ [n] := by
      split at h
      next hc =>
        cases h
        refine ⟨fun he => ?_, _, rfl⟩
        rw [hpre _ (by simp)] at he
        have hc2 := hc.2
        rw [hpre _ (by simp), ← he] at hc2
        simp at hc2
      next hc =>
        cases h
        refine ⟨fun he => hc ⟨by rw [he, hsrc]; rfl, he⟩, _, rfl⟩
    obtain ⟨h1, n, rfl⟩ := hne
    refine ⟨by simp, h1, ?_⟩
    rw [List.prefix_concat_iff]
    exact ⟨fun h => h.resolve_left (fun he => h1 he.symm), .inr⟩

/-- Packing `x.iso` where it is goes to `x.xiso.iso`; packing a directory goes beside it. -/
example (img : Bytes) : defaultImagePath [['a']] (twoHost img img) pathA false =
    .ok [['a'], "x.xiso.iso".toList] := by
  simp [defaultImagePath, twoHost, pathA]
  decide

example (img : Bytes) : defaultImagePath [['b']] (twoHost img img) [['a']] true = .ok [['b'], "a.iso".toList] := by
  simp [defaultImagePath, twoHost]
  decide

/-- `pack` of a directory creates its output: the conclusion of `C74_source_unchanged` is about states that exist. -/
example (img : Bytes) : ∃ st, st ∈ (cmdPack sampleTool (fun _ _ => flatFs oneFile) (fun _ => none) [['b']]
    (twoHost img img) [['a']] none).1 ∧ st [['b'], ['a', '.', 'i', 's', 'o']] = some (.file []) := by
  have hd : defaultImagePath [['b']] (twoHost img img) [['a']] true = .ok [['b'], ['a', '.', 'i', 's', 'o']] := by
    simp [defaultImagePath, twoHost]
    decide
  have ho : packOpen (twoHost img img) [['a']] [['b'], ['a', '.', 'i', 's', 'o']] =
      .ok ((twoHost img img).set [['b'], ['a', '.', 'i', 's', 'o']] (.file [])) := by
    simp [packOpen, twoHost, List.isPrefixOf]
  refine ⟨(twoHost img img).set [['b'], ['a', '.', 'i', 's', 'o']] (.file []), ?_, set_self⟩
  unfold cmdPack
  simp only [show twoHost img img [['a']] = some .dir from rfl, decide_true, hd, if_true]
  unfold packPathDir
  simp only [ho]
  split <;> simp

end Xdvdfs.Props
