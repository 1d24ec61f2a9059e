import Verif.Model.SpecCmd
import Verif.Spec.BuildImage
import Verif.Spec.BuildArgs

/-!
# Building from a specification
-/

namespace Xdvdfs.Spec

/-- Every element once, where it is first. -/
def onceEach : List Str → List Str
  | [] => []
  | k :: ks => k :: (onceEach ks).filter (fun x => decide (x ≠ k))

/-- The image path of the last rule with the pattern `k`. -/
def lastOf (rules : List (Str × Str)) (k : Str) : Option Str :=
  ((rules.filter (fun r => decide (r.1 = k))).getLast?).map Prod.snd

/-- The rules in which every pattern occurs once: at the place of its first rule, with the image path of its last. -/
def lastWins (rules : List (Str × Str)) : List (Str × Str) :=
  (onceEach (rules.map Prod.fst)).filterMap fun k => (lastOf rules k).map fun v => (k, v)

/-- The path argument of `build-image`, or the working directory. -/
def sourceOf (h : Host) (a : BuildStrings) : Str := a.source.getD (pathStr h.cwd)

/-- The specification that `build-image` uses has the path `s`: the one given with `-f`, or `xdvdfs.toml` in the source
directory, or the source itself if it is not a directory. -/
def UsesSpec (h : Host) (fs : HostFs) (a : BuildStrings) (s : Str) : Prop :=
  a.spec = some s ∨ (a.spec = none ∧
    (((∃ p, h.stat fs (sourceOf h a) = some (p, .dir)) ∧ s = pathJoin (sourceOf h a) specName) ∨
      ((∀ p, h.stat fs (sourceOf h a) ≠ some (p, .dir)) ∧ s = sourceOf h a)))

/-- The directory that `build-image` maps: the source, or the one it is in. -/
def MapsDir (h : Host) (fs : HostFs) (a : BuildStrings) (d : Str) : Prop :=
  ((∃ p, h.stat fs (sourceOf h a) = some (p, .dir)) ∧ d = sourceOf h a) ∨
    ((∀ p, h.stat fs (sourceOf h a) ≠ some (p, .dir)) ∧ pathParent (sourceOf h a) = some d)

end Xdvdfs.Spec
