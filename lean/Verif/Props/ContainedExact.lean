import Verif.Props.Unpack

/-!
# C46, for names with slashes

The names that keep an unpacked image inside the destination.
-/

namespace Xdvdfs.Spec

/-- A name that does not lead out of a directory: without a slash, or a relative path without `..`. -/
def StaysBelow (name : Str) : Prop := '/' ∉ name ∨ (name.head? ≠ some '/' ∧ ['.', '.'] ∉ hostComps name)

end Xdvdfs.Spec

namespace Xdvdfs.Contained

open Xdvdfs Spec

abbrev Below := StaysBelow

theorem _root_.Xdvdfs.Spec.StaysBelow.head {s : Str} (h : StaysBelow s) : s.head? ≠ some '/' := by
  rcases h with h | h
  · exact head_of_plain h
  · exact h.1

theorem _root_.Xdvdfs.Spec.StaysBelow.comps {s : Str} (h : StaysBelow s) (hne : s ≠ ['.', '.']) : ['.', '.'] ∉ hostComps s := by
  rcases h with h | h
  · by_cases e0 : s = []
    · rw [e0, hostComps_nil]; simp
    · rw [hostComps_plain h e0]; simp only [List.mem_singleton]; exact fun e' => hne e'.symm
  · exact h.2

theorem path_place (h : Host) (dest : Str) {x : Str × DirEnt} (hn : x.2.nameStr.head? ≠ some '/') :
    placeOf h (entryPath dest x) = stepsFrom (placeOf h (entryDir dest x)) (hostComps x.2.nameStr) := by
  unfold placeOf
  rw [hostComps_pathJoin hn, start_pathJoin hn, entryDir_comps, entryDir_start, stepsFrom_append]

/-- One entry: nothing outside changes, and an entry `..` that is a directory fails. -/
theorem copyoutEntry_contained {h : Host} {r : RawImage} {dest : Str} {x : Str × DirEnt} {fs fs' : HostFs} {res}
    (hrun : copyoutEntry h r dest x fs = (res, fs')) (hs : Sane h fs) (hn : Below x.2.nameStr)
    (hd : ['.', '.'] ∉ hostComps x.1) :
    ChangesOnlyInside h dest fs fs' ∧ (res = .ok () → Sane h fs' ∧
      (x.2.node.dirent.isDirectory = true → x.2.nameStr ≠ ['.', '.'])) := by
  unfold copyoutEntry at hrun
  simp only at hrun
  cases hc : h.createDirAll (entryDir dest x) fs with
  | mk r1 fs1 =>
  have h1 : ChangesOnlyInside h dest fs fs1 := by
    intro q hq
    rcases createDirAll_changes hc q with e | ⟨e1, e2, e3⟩
    · exact absurd e hq
    · rcases entryDir_way hd e1 with g | g
      · exact Or.inr ⟨g, e2, e3⟩
      · exact Or.inl g
  rw [hc] at hrun
  cases r1 with
  | ok u =>
    simp only at hrun
    have hs1 : Sane h fs1 := ⟨createDirAll_wellFormed hc hs.wf, createDirAll_keeps hc hs.cwd⟩
    have hpl := createDirAll_place hc hs.cwd
    have hdots : x.2.nameStr = ['.', '.'] → fs1 (placeOf h (entryPath dest x)) = some .dir := by
      intro e
      rw [path_place h dest hn.head, e]
      have : hostComps ['.', '.'] = [['.', '.']] := by decide
      rw [this]
      simp only [stepsFrom, if_true]
      rw [if_neg (by decide)]
      exact WellFormedHost.dropLast hs1.wf hpl
    have hin : x.2.nameStr ≠ ['.', '.'] → placeOf h dest <+: placeOf h (entryPath dest x) := by
      intro e
      rw [path_place h dest hn.head, entryDir_place]
      refine (stepsFrom_prefix hd).trans (stepsFrom_prefix ?_)
      exact hn.comps e
    split at hrun
    · next hdir =>
      rcases createDir_changes hrun with ⟨e1, e2⟩ | ⟨e1, e2, e3, e4⟩
      · rw [e1]; exact ⟨h1, fun e => absurd e e2⟩
      · have hne : x.2.nameStr ≠ ['.', '.'] := by
          intro e; rw [hdots e] at e2; cases e2
        rw [e4]
        exact ⟨ChangesOnlyInside.trans h1 (changes_of_set (hin hne)), fun _ => ⟨hs1.set e3 (by rw [e2]; simp), fun _ => hne⟩⟩
    · next hdir =>
      split at hrun
      · cases hrun
        exact ⟨h1, fun _ => ⟨hs1, fun e => absurd e hdir⟩⟩
      · rcases writeFile_changes hrun with e1 | ⟨e1, e2, b, e3⟩
        · rw [e1]; exact ⟨h1, fun _ => ⟨hs1, fun e => absurd e hdir⟩⟩
        · have hne : x.2.nameStr ≠ ['.', '.'] := fun e => e1 (hdots e)
          rw [e3]
          exact ⟨ChangesOnlyInside.trans h1 (changes_of_set (hin hne)), fun _ => ⟨hs1.set e2 e1, fun e => absurd e hdir⟩⟩
  | err e => simp only at hrun; cases hrun; exact ⟨h1, fun e => by cases e⟩
  | panic => simp only at hrun; cases hrun; exact ⟨h1, fun e => by cases e⟩
  | hang => simp only at hrun; cases hrun; exact ⟨h1, fun e => by cases e⟩

theorem copyoutLoop_contained {h : Host} {r : RawImage} {dest : Str} : ∀ (B A : List (Str × DirEnt)) (fs : HostFs)
    {res fs'}, copyoutLoop h r dest B fs = (res, fs') → Sane h fs → ParentsFirst (A ++ B) →
    (∀ x ∈ B, Below x.2.nameStr) →
    (∀ y ∈ A, ['.', '.'] ∉ hostComps y.1 ∧ Below y.2.nameStr ∧
      (y.2.node.dirent.isDirectory = true → y.2.nameStr ≠ ['.', '.'])) →
    ChangesOnlyInside h dest fs fs' := by
  intro B
  induction B with
  | nil => intro A fs res fs' hrun _ _ _ _; cases hrun; exact ChangesOnlyInside.refl _ _ _
  | cons x xs ih =>
    intro A fs res fs' hrun hs hp hn hA
    simp only [copyoutLoop] at hrun
    have hx : ['.', '.'] ∉ hostComps x.1 := by
      rcases hp A x xs rfl with e | ⟨y, hy, hyd, e⟩
      · rw [e, hostComps_nil]; simp
      · obtain ⟨g1, g2, g3⟩ := hA y hy
        rw [e, hostComps_join]
        simp only [List.mem_append, not_or]
        refine ⟨g1, ?_⟩
        exact g2.comps (g3 hyd)
    cases hc : copyoutEntry h r dest x fs with
    | mk r1 fs1 =>
    obtain ⟨h1, h2⟩ := copyoutEntry_contained hc hs (hn x (by simp)) hx
    rw [hc] at hrun
    cases r1 with
    | ok u =>
      simp only at hrun
      obtain ⟨h3, h4⟩ := h2 rfl
      refine ChangesOnlyInside.trans h1 (ih (A ++ [x]) fs1 hrun h3 (by simpa using hp) (fun y hy => hn y (by simp [hy])) ?_)
      intro y hy
      rcases List.mem_append.1 hy with hy | hy
      · exact hA y hy
      · simp only [List.mem_singleton] at hy
        subst hy
        exact ⟨hx, hn _ (by simp), h4⟩
    | err e => simp only at hrun; cases hrun; exact h1
    | panic => simp only at hrun; cases hrun; exact h1
    | hang => simp only at hrun; cases hrun; exact h1

end Xdvdfs.Contained

namespace Xdvdfs.Props

open Xdvdfs Spec

/-- C46 for images whose names do not lead out of a directory: a name may contain slashes, but is then not absolute and
has no component `..`.  Whatever else the image contains, and whatever faults occur, unpacking changes nothing outside the
destination, except that missing directories on the way to it may be created.  The name `..` itself needs no exception.
`C46_unpack_contained_false` is about the name `../x`, and `C46_absolute_false` about `/x`. -/
theorem C46_stays_below_partial (h : Host) (img : Bytes) (clones : Bool) (dest : Str) (fuel : Nat)
    (host : HostFs) (hw : WellFormedHost host) (hcwd : host h.cwd = some .dir)
    (hnames : ∀ base vol tree, offsetNew (fileDev img) = .ok base →
      readVolume (offsetDev (fileDev img) base) = .ok vol →
      fileTree (offsetDev (fileDev img) base) vol.root fuel = .ok tree → ∀ x ∈ tree, StaysBelow x.2.nameStr) :
    ChangesOnlyInside h dest host (cmdUnpack h img clones dest fuel host).2 := by
  unfold cmdUnpack
  split
  · next base hb =>
    split
    · next vol hv =>
      unfold copyoutDirectory
      split
      · next tree ht =>
        exact Contained.copyoutLoop_contained tree [] host rfl ⟨hw, hcwd⟩ (fileTree_parents ht)
          (hnames base vol tree hb hv ht) (by simp)
      · exact ChangesOnlyInside.refl _ _ _
      · exact ChangesOnlyInside.refl _ _ _
      · exact ChangesOnlyInside.refl _ _ _
    · exact ChangesOnlyInside.refl _ _ _
    · exact ChangesOnlyInside.refl _ _ _
    · exact ChangesOnlyInside.refl _ _ _
  · exact ChangesOnlyInside.refl _ _ _
  · exact ChangesOnlyInside.refl _ _ _
  · exact ChangesOnlyInside.refl _ _ _

/-- An absolute path as a file name. -/
def rooted : List (Str × Bytes) := [(['/', 'x'], [7])]

theorem rooted_ok : FlatOk rooted := by
  refine ⟨by simp [DistinctNames, rooted], ?_, ?_, by decide⟩
  · intro x hx
    simp only [rooted, List.mem_singleton] at hx
    subst hx
    refine ⟨by decide, fun c hc => ascii_inCp1252 ?_⟩
    revert c; decide
  · intro x hx
    simp only [rooted, List.mem_singleton] at hx
    subst hx; decide

/-- C46 is false: the tool packs a file named `/x`, and unpacking the image into the existing empty directory `out` succeeds
and writes the file `/x` of the host. -/
theorem C46_absolute_false (img0 : Bytes) (clones : Bool) : ∃ s' host',
    createImage (fileEnv (flatFs rooted) (fun _ => none)) 1 ⟨⟨img0, []⟩, []⟩ = (.ok (), s') ∧
    FreshDest sampleHost ['o', 'u', 't'] sampleHostFs ∧
    (∀ fuel, 2 < fuel → cmdUnpack sampleHost s'.dev.img clones ['o', 'u', 't'] fuel sampleHostFs = (.ok (), host')) ∧
    sampleHostFs [['x']] = none ∧ host' [['x']] = some (.file [7]) ∧
    ¬ ChangesOnlyInside sampleHost ['o', 'u', 't'] sampleHostFs host' := by
  obtain ⟨s', h⟩ := flat_packs rooted_ok img0
  obtain ⟨vol, d, h1, h2, h3, h4, h5⟩ := single_listing rooted_ok h
  have hag := offsetDev_zero (fileDev s'.dev.img)
  have hx : (RawImage.mk s'.dev.img 0 clones).extract d.node.dirent = .ok [7] :=
    extract_ok (by rw [← h5]; exact hag.readDataAll _)
  have hlen : d.node.dirent.nameLen ≠ 0 := by
    intro e
    have := fileTree_named (h2 3 (by omega)) _ (List.mem_singleton.2 rfl)
    rw [e] at this
    have hx0 : d.name = [] := List.eq_nil_of_length_eq_zero this
    simp [DirEnt.nameStr, hx0, decodeName] at h3
  refine ⟨s', sampleHostFs.set [['x']] (.file [7]), h, sample_fresh, ?_, by decide, set_same _ _ _, ?_⟩
  · intro fuel hf
    unfold cmdUnpack
    rw [offsetNew_zero h1]
    simp only
    rw [hag.readVolume, h1]
    simp only [copyoutDirectory]
    have : fileTree (RawImage.dev ⟨s'.dev.img, 0, clones⟩) vol.root fuel = .ok [([], d)] := by
      rw [← h2 fuel hf]; exact hag.fileTree _ _
    rw [this]
    simp only [copyoutLoop, copyoutEntry]
    have e1 : pathJoin ['o', 'u', 't'] (trimSlashes []) = ['o', 'u', 't', '/'] := by decide
    have e2 : pathJoin ['o', 'u', 't', '/'] d.nameStr = ['/', 'x'] := by
      rw [h3]; decide
    rw [e1, e2]
    have e3 : sampleHost.createDirAll ['o', 'u', 't', '/'] sampleHostFs = (.ok (), sampleHostFs) := by
      rfl
    rw [e3]
    simp only
    rw [if_neg (by rw [h4]; decide), if_neg hlen, hx]
    rfl
  · intro hc
    rcases hc [['x']] (by rw [set_same]; decide) with g | ⟨_, _, g⟩
    · revert g; decide
    · rw [set_same] at g; cases g

/-- A file named `a/x`. -/
def nested : List (Str × Bytes) := [(['a', '/', 'x'], [7])]

theorem nested_ok : FlatOk nested := by
  refine ⟨by simp [DistinctNames, nested], ?_, ?_, by decide⟩
  · intro x hx
    simp only [nested, List.mem_singleton] at hx
    subst hx
    refine ⟨by decide, fun c hc => ascii_inCp1252 ?_⟩
    revert c; decide
  · intro x hx
    simp only [nested, List.mem_singleton] at hx
    subst hx; decide

/-- The hypotheses of `C46_stays_below_partial` hold for an image with a file named `a/x`, which has a slash. -/
example (img0 : Bytes) (clones : Bool) : ∃ s',
    createImage (fileEnv (flatFs nested) (fun _ => none)) 1 ⟨⟨img0, []⟩, []⟩ = (.ok (), s') ∧
    ChangesOnlyInside sampleHost ['o', 'u', 't'] sampleHostFs
      (cmdUnpack sampleHost s'.dev.img clones ['o', 'u', 't'] 3 sampleHostFs).2 := by
  obtain ⟨s', h⟩ := flat_packs nested_ok img0
  obtain ⟨vol, d, h1, h2, h3, h4, h5⟩ := single_listing nested_ok h
  have hag := offsetDev_zero (fileDev s'.dev.img)
  refine ⟨s', h, C46_stays_below_partial _ _ _ _ _ _ sampleHost_wf (by decide) ?_⟩
  intro base v tree hb hv ht x hx
  rw [offsetNew_zero h1] at hb
  cases hb
  rw [hag.readVolume, h1] at hv
  cases hv
  rw [hag.fileTree, h2 3 (by omega)] at ht
  cases ht
  rw [List.mem_singleton.1 hx]
  show StaysBelow d.nameStr
  rw [h3]
  exact .inr (by decide)

end Xdvdfs.Props
