import Verif.Model.Remap
import Verif.Spec.Pack
import Verif.Spec.Trie

/-!
# Specification vocabulary for remapping
-/

namespace Xdvdfs

/-- A measure of the size of an index, larger than the number of its nodes. -/
noncomputable def Trie.size {α : Type} (t : Trie α) : Nat := sizeOf t

end Xdvdfs

namespace Xdvdfs.Spec

/-! ## Rewrite patterns -/

/-- A rewrite pattern is a sequence of pieces: single characters, and braces with what is between
them. -/
inductive Piece where
  | lit (c : Char)
  | sub (body : Str)
  deriving DecidableEq

def Piece.text : Piece → Str
  | .lit c => [c]
  | .sub body => '{' :: (body ++ ['}'])

/-- The text of a pattern. -/
def render (ps : List Piece) : Str := ps.flatMap Piece.text

/-- Decimal value of a string of digits. -/
def decimal (ds : Str) : Nat := ds.foldl (fun n c => 10 * n + (c.toNat - '0'.toNat)) 0

def AllDigits (s : Str) : Prop := ∀ c ∈ s, c.isDigit = true

/-- Only digits between braces, and no opening brace outside of them. -/
def WellFormedPattern (ps : List Piece) : Prop :=
  ∀ x ∈ ps, match x with
    | .lit c => c ≠ '{'
    | .sub body => AllDigits body

/-- The numbers in the braces of a pattern, in order. -/
def numbersIn (ps : List Piece) : List Nat :=
  ps.filterMap (fun x => match x with
    | .lit _ => none
    | .sub body => some (decimal body))

/-- A brace of the pattern is never closed. -/
def LeftOpen (s : Str) : Prop :=
  ∃ ps ds, WellFormedPattern ps ∧ AllDigits ds ∧ s = render ps ++ '{' :: ds

/-- The character at position `i` is the first inside braces that is not a digit. -/
def NonDigitAt (s : Str) (i : Nat) : Prop :=
  ∃ ps ds c rest, WellFormedPattern ps ∧ AllDigits ds ∧ c.isDigit = false ∧ c ≠ '}' ∧
    s = render ps ++ '{' :: ds ++ c :: rest ∧ i = (render ps ++ '{' :: ds).length

/-- A brace is opened inside braces. -/
def NestedBrace (s : Str) : Prop :=
  ∃ ps ds rest, WellFormedPattern ps ∧ AllDigits ds ∧ s = render ps ++ '{' :: ds ++ '{' :: rest

/-- All numbers in braces are below `2^64`. -/
def NumbersFit (s : Str) : Prop :=
  ∀ a ds b, AllDigits ds → s = a ++ '{' :: ds ++ b → decimal ds < 2 ^ 64

/-- The pieces are those of a pattern whose numbers are written without leading zeros. -/
def CanonicalPattern (ps : List Piece) : Prop :=
  ∀ x ∈ ps, match x with
    | .lit c => c ≠ '{'
    | .sub body => ∃ n, n < 2 ^ 64 ∧ body = Nat.toDigits 10 n

/-- The pattern with every brace replaced by the text captured under its number, or nothing. -/
def expand (caps : Captures) (ps : List Piece) : Str :=
  ps.flatMap (fun x => match x with
    | .lit c => [c]
    | .sub body => (caps (decimal body)).getD [])

/-- No captured text contains an opening brace. -/
def BraceFree (caps : Captures) : Prop := ∀ i s, caps i = some s → '{' ∉ s

/-- The non-empty components of a path string. -/
def components (s : Str) : Path := (splitSlash s).filter (fun c => decide (c ≠ []))

/-! ## Rules -/

/-- A rule as the user writes it: a pattern for host paths and a rewrite pattern. -/
abbrev Rule := Str × Str

/-- Rules that start with an exclamation mark exclude what they match. -/
def Exclusion (r : Rule) : Prop := r.1.head? = some '!'

/-- The glob of a rule. -/
def ruleGlob (r : Rule) : Str := r.1.dropWhile (fun c => c == '!')

/-- The host path below the root of the host, without leading slash. -/
def relativeText (p : Path) : Str := (slashPath p).dropWhile (fun c => c == '/')

/-- The glob of rule `r` matches the host path `p` and captures `caps`. -/
def Matches (G : GlobEngine) (r : Rule) (p : Path) (caps : Captures) : Prop :=
  ∃ g, G (ruleGlob r) = some g ∧ g (relativeText p) = some caps

def Hits (G : GlobEngine) (r : Rule) (p : Path) : Prop := ∃ caps, Matches G r p caps

/-- `r` is the first rule that matches `p` after the last exclusion that matches `p`. -/
def SelectedRule (G : GlobEngine) (rules : List Rule) (p : Path) (r : Rule) : Prop :=
  ∃ before skipped after, rules = before ++ skipped ++ r :: after ∧
    (before = [] ∨ ∃ b x, before = b ++ [x] ∧ Exclusion x ∧ Hits G x p) ∧
    (∀ x ∈ skipped, ¬ Hits G x p) ∧
    ¬ Exclusion r ∧ Hits G r p ∧
    ∀ x ∈ after, Exclusion x → ¬ Hits G x p

/-- `m` is the longest initial part of the host path `p`, other than the root, that some rule matches. -/
def MatchPoint (G : GlobEngine) (rules : List Rule) (p m : Path) : Prop :=
  m <+: p ∧ m ≠ [] ∧ (∃ r ∈ rules, Hits G r m) ∧
    ∀ m', m' <+: p → m.length < m'.length → ∀ r ∈ rules, ¬ Hits G r m'

/-- The rules map the host path `p` to the image path `q`: `q` is the rewritten form of the part of `p`
that the selected rule matches, followed by the rest of `p`. -/
def MapsTo (G : GlobEngine) (rules : List Rule) (p q : Path) : Prop :=
  ∃ m rest r caps, p = m ++ rest ∧ MatchPoint G rules p m ∧ SelectedRule G rules m r ∧
    Matches G r m caps ∧ rewriteTarget r.2 caps rest = .ok q

/-- The host path `p` is mapped by some rule. -/
def IsMapped (G : GlobEngine) (rules : List Rule) (p : Path) : Prop :=
  ∃ m r, MatchPoint G rules p m ∧ SelectedRule G rules m r

/-- No file is mapped to the root or to an initial part of (or the same place as) where another entry of
the host is mapped. -/
def NoConflicts (G : GlobEngine) (rules : List Rule) (readDir : Path → Res (List FileEntry)) : Prop :=
  ∀ p e q, EntryIn readDir p e → e.isDir = false → MapsTo G rules (p ++ [e.name]) q → q ≠ [] ∧
    ∀ p' e' q', EntryIn readDir p' e' → (p', e') ≠ (p, e) → MapsTo G rules (p' ++ [e'.name]) q' → ¬ q <+: q'

end Xdvdfs.Spec
