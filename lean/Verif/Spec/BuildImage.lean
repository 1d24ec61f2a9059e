import Verif.Model.BuildImage
import Verif.Spec.Remap
import Verif.Spec.StdFs

/-!
# What users expect of `build-image` and `image-spec`
-/

namespace Xdvdfs.Spec

/-- The file that a run of `build-image` without `-m` takes its rules from: the one given with `-f`; without `-f` the
source path, or `xdvdfs.toml` in it if it is a directory. -/
def SpecFile (fs : HostFs) (args : BuildArgs) (p : HostPath) : Prop :=
  args.spec = some p ∨
  (args.spec = none ∧ fs args.source = some .dir ∧ p = args.source ++ [['x', 'd', 'v', 'd', 'f', 's', '.', 't', 'o', 'm', 'l']]) ∨
  (args.spec = none ∧ fs args.source ≠ some .dir ∧ p = args.source)

/-- The directory that a run of `build-image` maps: the source path, or the directory that contains it if it is not a
directory. -/
def MappedDir (fs : HostFs) (args : BuildArgs) (d : HostPath) : Prop :=
  (fs args.source = some .dir ∧ d = args.source) ∨ (fs args.source ≠ some .dir ∧ ∃ name, args.source = d ++ [name])

/-- No specification that the run uses says where the image goes. -/
def NoSpecOutput (parse : Bytes → Option ImageSpec) (fs : HostFs) (args : BuildArgs) : Prop :=
  args.rules = none → ∀ p b spec, SpecFile fs args p → fs p = some (.file b) → parse b = some spec → spec.output = none

/-- The text of a rule before its first colon. -/
def hostPart (rule : Str) : Str := rule.takeWhile (fun c => c ≠ ':')

/-- A rule as it is given with `-m`: the pattern, a colon, and the image path, which an exclusion may go without. -/
def Written (rule : Str × Str) (text : Str) : Prop :=
  text = rule.1 ++ ':' :: rule.2 ∨ (Exclusion rule ∧ rule.2 = [] ∧ text = rule.1)

/-- The rules as they are given with a series of `-m` options. -/
def AllWritten : List (Str × Str) → List Str → Prop
  | [], [] => True
  | p :: ps, r :: rs => Written p r ∧ AllWritten ps rs
  | _, _ => False

/-- The host is as it was, or it is a state seen during or after the run. -/
def Seen (out : List HostFs × Res BuildResult) (st : HostFs) : Prop :=
  st ∈ out.1 ∨ ∃ lines, out.2 = .ok ⟨st, lines⟩

/-- A run failed. -/
def Failed (out : List HostFs × Res BuildResult) : Prop := ∀ b, out.2 ≠ .ok b

/-- A file of a source tree with the given bytes. -/
def TreeFile (tree : Path → Res (List FileEntry)) (content : Path → Bytes) (q : Path) (data : Bytes) : Prop :=
  ∃ d e, EntryIn tree d e ∧ e.isDir = false ∧ q = d ++ [e.name] ∧ content q = data

end Xdvdfs.Spec
