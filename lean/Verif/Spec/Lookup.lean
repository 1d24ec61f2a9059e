import Verif.Spec.Reader
import Verif.Spec.Pack

/-!
# Images made by any tool

A directory is described by the entries that its links lead to; nothing is said about where in the table they are or which
shape the tree has.
-/

namespace Xdvdfs.Spec

/-- The table offset a link leads to; `0` and `0xffff` lead nowhere. -/
def target (l : UInt16) : Option Nat := if l ≠ 0 ∧ l ≠ 0xffff then some (4 * l.toNat) else none

/-- The entries below a place of the table, from left to right. -/
inductive Branch (dev : Dev) (tab : Region) : Option Nat → List DirEnt → Prop
  | nothing : Branch dev tab none []
  | blank {o} : o < tab.size.toNat → readDirent dev (2048 * tab.sector.toNat + o) = .ok none → Branch dev tab (some o) []
  | entry {o d l r} : EntryAt dev tab o d → Branch dev tab (target d.node.left) l →
      Branch dev tab (target d.node.right) r → Branch dev tab (some o) (l ++ d :: r)

/-- The links of a directory lead to the entries `l`, sorted by name ignoring case: it is a search tree. -/
def Sorted (dev : Dev) (tab : Region) (l : List DirEnt) : Prop :=
  Branch dev tab (if tab.size = 0 then none else some 0) l ∧
    l.Pairwise (fun a b => cmpIgnoreCase a.nameStr b.nameStr = .lt)

/-- None of the entries marks a missing child with `0xffff`. -/
def ZeroLinks (l : List DirEnt) : Prop := ∀ d ∈ l, d.node.left ≠ 0xffff ∧ d.node.right ≠ 0xffff

/-- The root directory and all directories in the listing of the whole image satisfy `P`. -/
def EveryDir (root : Region) (listed : List (Str × DirEnt)) (P : Region → Prop) : Prop :=
  P root ∧ ∀ x ∈ listed, ∀ t, x.2.node.dirent.direntTable = some t → P t

end Xdvdfs.Spec
