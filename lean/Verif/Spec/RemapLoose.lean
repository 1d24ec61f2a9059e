import Verif.Spec.Remap

/-!
# Specification vocabulary for rewrite patterns as they are read

Opening braces inside braces are skipped.
-/

namespace Xdvdfs.Spec

/-- Digits and opening braces. -/
def LooseBody (s : Str) : Prop := ∀ c ∈ s, c.isDigit = true ∨ c = '{'

/-- Only digits and opening braces between braces, and no opening brace outside of them. -/
def LoosePattern (ps : List Piece) : Prop :=
  ∀ x ∈ ps, match x with
    | .lit c => c ≠ '{'
    | .sub body => LooseBody body

/-- The number that the digits of a string make. -/
def digitsIn (body : Str) : Nat := decimal (body.filter Char.isDigit)

/-- The numbers in the braces of a pattern, in order. -/
def looseNumbers (ps : List Piece) : List Nat :=
  ps.filterMap (fun x => match x with
    | .lit _ => none
    | .sub body => some (digitsIn body))

/-- All numbers are below `2^64`. -/
def Below64 (ns : List Nat) : Prop := ∀ n ∈ ns, n < 2 ^ 64

end Xdvdfs.Spec
