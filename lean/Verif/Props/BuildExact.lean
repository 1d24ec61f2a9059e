import Verif.Props.BuildImage

/-!
# C83, exactly: what `build-image` does with a source that is not a directory
-/

namespace Xdvdfs.Props

open Xdvdfs Spec

/-- C83 with `-m`, exactly.  If the source path is not a directory, whether there is a file or nothing, but is in one, then
`build-image` with `-m` does in every respect the same as for the directory that contains it: it maps the same files,
creates the same image at the same place, prints the same and fails alike. -/
theorem C83_options_exactly (t : Tool) (G : GlobEngine) (parse : Bytes → Option ImageSpec) (r : DirReader)
    (self : Bytes) (faults : Faults) (fs : HostFs) (a : BuildArgs) {rs : List Str} (hr : a.rules = some rs)
    {d : HostPath} {name : Str} (hs : a.source = d ++ [name]) (hno : fs a.source ≠ some .dir) (hd : fs d = some .dir) :
    cmdBuildImage t G parse r self faults fs a = cmdBuildImage t G parse r self faults fs { a with source := d } := by
  have h1 : buildPaths fs a = .ok (a.spec.getD a.source, d) := by
    unfold buildPaths
    rw [if_neg hno, if_neg (by rw [hs]; simp), hs, List.dropLast_concat]
  have h2 : buildPaths fs { a with source := d } = .ok (a.spec.getD (d ++ [specName]), d) := by
    unfold buildPaths
    rw [if_pos hd]
  have h3 : ∀ (b : BuildArgs) p, b.rules = some rs → buildSpec parse fs b p = .ok none := by
    intro b p hb
    unfold buildSpec
    rw [if_neg (by rw [hb]; simp)]
  have h4 : buildPlan parse fs a = buildPlan parse fs { a with source := d } := by
    unfold buildPlan
    rw [h1, h2]
    simp only [Res.ok_bind]
    rw [h3 a _ hr, h3 { a with source := d } _ hr]
    rfl
  unfold cmdBuildImage
  rw [h4]

/-- The hypotheses of `C83_options_exactly` hold for the source `/s/z`, which does not exist, in the directory `/s`. -/
example : ∃ a : BuildArgs, a.rules = some [['a', ':', 'x']] ∧ a.source = [['s']] ++ [['z']] ∧
    pairHost a.source = none ∧ pairHost [['s']] = some .dir :=
  ⟨{ optionArgs [['a', ':', 'x']] true with source := [['s'], ['z']] }, rfl, rfl, by decide, by decide⟩

end Xdvdfs.Props
