import Verif.Model.BuildArgs
import Verif.Spec.BuildImage
import Verif.Spec.CompressArgs

/-!
# What the arguments of `build-image` name
-/

namespace Xdvdfs.Spec

/-- The string ends in a name, what stands before it names a directory, and this is the place `p` then. -/
def NamesPlace (h : Host) (fs : HostFs) (s : Str) (p : HostPath) : Prop :=
  ∃ dir d n, s = dir ++ n ∧ HostName n ∧ PrefixNames h fs dir d ∧ p = d ++ [n]

/-- The string names the directory `p` by its name, perhaps with slashes at the end. -/
def NamedDir (h : Host) (fs : HostFs) (s : Str) (p : HostPath) : Prop :=
  fs p = some .dir ∧ ∃ t k, s = t ++ List.replicate k '/' ∧ NamesPlace h fs t p

/-- It is said where the image goes, by an argument or by the specification, or it is a dry run. -/
def OutputGiven (parse : Bytes → Option ImageSpec) (fs : HostFs) (b : BuildArgs) : Prop :=
  b.dryRun = true ∨ b.image ≠ none ∨ (b.rules = none ∧
    ∀ p x spec, SpecFile fs b p → fs p = some (.file x) → parse x = some spec → spec.output ≠ none)

/-- The string names the directory `p`: by its name or, if no name is needed for the output, in any way. -/
def NamesFolder (parse : Bytes → Option ImageSpec) (h : Host) (fs : HostFs) (b : BuildArgs) (s : Str) (p : HostPath) :
    Prop :=
  NamedDir h fs s p ∨ (OutputGiven parse fs b ∧ h.stat fs s = some (p, .dir))

/-- The string names the source: a directory, or something in a directory that is given with it. -/
def NamesSource (parse : Bytes → Option ImageSpec) (h : Host) (fs : HostFs) (b : BuildArgs) (s : Str) : Prop :=
  NamesFolder parse h fs b s b.source ∨
  (fs b.source ≠ some .dir ∧
    ∃ dir d n, s = dir ++ '/' :: n ∧ HostName n ∧ NamesFolder parse h fs b dir d ∧ b.source = d ++ [n])

/-- The strings `a`, typed in the working directory of `h`, name what `b` says. -/
structure NamesArgs (parse : Bytes → Option ImageSpec) (h : Host) (fs : HostFs) (a : BuildStrings) (b : BuildArgs) :
    Prop where
  rules : a.rules = b.rules
  dryRun : a.dryRun = b.dryRun
  spec : (a.spec = none ∧ b.spec = none) ∨ ∃ s p, a.spec = some s ∧ b.spec = some p ∧ NamesPlace h fs s p
  source : (a.source = none ∧ b.source = h.cwd) ∨ ∃ s, a.source = some s ∧ NamesSource parse h fs b s
  image : (a.image = none ∧ b.image = none) ∨ ∃ s p, a.image = some s ∧ b.image = some p ∧ NamesPlace h fs s p

end Xdvdfs.Spec
