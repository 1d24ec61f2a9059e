import Verif.Props.CompressArgs
import Verif.Props.CliUnpack

/-!
# C88 and C94: paths that end in no name
-/

namespace Xdvdfs.Props
open Xdvdfs Spec

/-- The path ends in a name: in something else than `.` and `..` and the root. -/
def Spec.HasName (path : Str) : Prop := ∃ name, LastComponent path name ∧ name ≠ ['.', '.']

theorem hasName_iff {path : Str} : Spec.HasName path ↔ fileName path ≠ none := by
  constructor
  · rintro ⟨name, h1, h2⟩
    rw [fileName_last h1 h2]
    simp
  · intro h
    unfold fileName at h
    split at h
    · rename_i c hc
      split at h
      · exact absurd rfl h
      · rename_i hne
        obtain ⟨b, hb⟩ := List.getLast?_eq_some_iff.1 hc
        exact ⟨c, ⟨b, hb⟩, hne⟩
    · exact absurd rfl h

/-- C94, for every source that exists: if its path ends in a name, compressing without an output path is the same as
compressing to some output path; if not, as with `.`, `..` and `/`, it always panics and changes nothing. -/
theorem C94_no_name_panics {h : Host} {fs : HostFs} {source : Str} {x : HostPath × HostNode} (hst : h.stat fs source = some x) :
    (Spec.HasName source → ∃ out, ∀ t r most c, cmdCompressArgs h t r most c fs source none =
      cmdCompressArgs h t r most c fs source (some out)) ∧
    (¬ Spec.HasName source → ∀ t r most c, cmdCompressArgs h t r most c fs source none = (.panic, fs)) := by
  obtain ⟨src, n⟩ := x
  rw [hasName_iff]
  refine ⟨?_, ?_⟩
  · intro hh
    cases hf : fileName source with
    | none => exact absurd hf hh
    | some name =>
      refine ⟨withExtension name ['c', 's', 'o'] (n = .dir), ?_⟩
      intro t r most c
      simp only [cmdCompressArgs, hst, defaultCompressArg, hf]
  · intro hh t r most c
    simp only [cmdCompressArgs, hst, defaultCompressArg, Classical.not_not.1 hh]

/-- C88, for every path, whatever is there: if it ends in a name, unpacking without a destination is the same as unpacking
to some destination that depends on nothing but the name; if not, it always panics and changes nothing. -/
theorem C88_no_name_panics {image : Str} :
    (Spec.HasName image → ∃ dest, ∀ h clones fuel fs, cmdUnpackArgs h clones fuel fs image none =
      cmdUnpackArgs h clones fuel fs image (some dest)) ∧
    (¬ Spec.HasName image → ∀ h clones fuel fs, cmdUnpackArgs h clones fuel fs image none = (.panic, fs)) := by
  rw [hasName_iff]
  refine ⟨?_, ?_⟩
  · intro hh
    cases hf : fileName image with
    | none => exact absurd hf hh
    | some name => exact ⟨stdWithExtension name [], fun h clones fuel fs => by simp only [cmdUnpackArgs, hf]⟩
  · intro hh h clones fuel fs
    simp only [cmdUnpackArgs, Classical.not_not.1 hh]

/-- `a/b/.` ends in a name, `a/..` and `/.` do not. -/
example : Spec.HasName "a/b/.".toList ∧ ¬ Spec.HasName "a/..".toList ∧ ¬ Spec.HasName "/.".toList := by
  simp only [hasName_iff]
  decide

end Xdvdfs.Props
