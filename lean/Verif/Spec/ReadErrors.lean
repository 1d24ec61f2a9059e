import Verif.Model.ReadCli
import Verif.Spec.Reader

/-!
# Vocabulary for read errors
-/

namespace Xdvdfs.Spec

open Xdvdfs

/-- An operation comes to the same, or it reports an error. -/
def SameOrError {α : Type _} (r' r : Res α) : Prop := r' = r ∨ ∃ e, r' = .err e

/-- Some reads fail on `bad` that succeed on `good`; the others come to the same. -/
def FailsMore (bad good : Dev) : Prop := ∀ off n, SameOrError (bad.read off n) (good.read off n)

/-- A command prints the same and ends the same way, or it reports an error after printing a part of it. -/
def PrintsLess {H : Type} (p' p : Printed H) : Prop :=
  p' = p ∨ (∃ e, p'.outcome = .err e) ∧ p'.lines <+: p.lines

/-- The same for a source of files: listings and copies come to the same, or they fail. -/
def SourceFails (bad good : SourceFs) : Prop :=
  (∀ p, SameOrError (bad.readDir p) (good.readDir p)) ∧ bad.pathToString = good.pathToString ∧
    ∀ p off size, bad.copy p off size = good.copy p off size ∨ ∃ e, (bad.copy p off size).2 = .err e

/-- At most one of the places where images are looked for holds a volume. -/
def OneVolume (dev : Dev) : Prop :=
  ∀ o ∈ partitionOffsets, ∀ o' ∈ partitionOffsets, VolumeAt dev o → VolumeAt dev o' → o = o'

end Xdvdfs.Spec
