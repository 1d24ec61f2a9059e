import Verif.Model.Trie

/-!
# Specification of the path index

The index is a finite map from paths to values in which the first insertion of a path wins, and a
name can only be inserted into the root or into a directory that is already in the map.
-/

namespace Xdvdfs.Spec

/-- The first value associated with `p`. -/
def lookupPath (p : Path) (m : List (Path × α)) : Option α := (m.find? (fun x => x.1 == p)).map Prod.snd

/-- `dir` is the root or was inserted. -/
def HasDir (m : List (Path × α)) (dir : Path) : Prop := dir = [] ∨ dir ∈ m.map Prod.fst

instance (m : List (Path × α)) (dir : Path) : Decidable (HasDir m dir) := inferInstanceAs (Decidable (_ ∨ _))

/-- An insertion: directory, name and value. -/
abbrev Insertion (α : Type) := Path × Str × α

/-- The map after a history of insertions, oldest first. -/
def indexAfter (hist : List (Insertion α)) : List (Path × α) :=
  hist.foldl (fun m x => if HasDir m x.1 then m ++ [(x.1 ++ [x.2.1], x.2.2)] else m) []

/-- Running a history on the index; an insertion into a missing directory changes nothing. -/
def runInsertions : List (Insertion α) → Trie α → Res (Trie α)
  | [], t => .ok t
  | (dir, name, val) :: rest, t => do
    match ← t.insertAt dir name val with
    | none => runInsertions rest t
    | some t => runInsertions rest t

/-- All characters are below U+0100. -/
def Latin1 (s : Str) : Prop := ∀ c ∈ s, c.toNat < 256

def Latin1Path (p : Path) : Prop := ∀ s ∈ p, Latin1 s

/-- All names and directories of a history consist of characters below U+0100. -/
def Latin1History (h : List (Insertion α)) : Prop := ∀ x ∈ h, Latin1Path x.1 ∧ Latin1 x.2.1

end Xdvdfs.Spec
