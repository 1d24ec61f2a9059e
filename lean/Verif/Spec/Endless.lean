import Verif.Spec.Reader

/-!
# Endless chains of links
-/

namespace Xdvdfs.Spec

/-- What is at table offset `o` is in the table and can be read: an entry, or the mark of an empty place. -/
def Legible (dev : Dev) (tab : Region) (o : Nat) : Prop :=
  o < tab.size.toNat ∧ ∃ x, readDirent dev (2048 * tab.sector.toNat + o) = .ok x

/-- Links that lead on and on, from the first entry of the table. -/
def EndlessLinks (dev : Dev) (tab : Region) : Prop :=
  ∃ f : Nat → Nat, f 0 = 0 ∧ ∀ i, ChildOf dev tab (f i) (f (i + 1))

/-- Looking for `name`, one goes from the entry at `o` to the one at `c`: to the left if the name is smaller, to the right if
it is larger. -/
def SearchStep (dev : Dev) (tab : Region) (name : Str) (o c : Nat) : Prop :=
  ∃ d, EntryAt dev tab o d ∧ c < tab.size.toNat ∧ c ≠ 0 ∧
    ((cmpIgnoreCase name d.nameStr = .lt ∧ c = 4 * d.node.left.toNat) ∨
     (cmpIgnoreCase name d.nameStr = .gt ∧ c = 4 * d.node.right.toNat))

/-- A search for `name` that goes on and on. -/
def EndlessSearch (dev : Dev) (tab : Region) (name : Str) : Prop :=
  tab.size ≠ 0 ∧ ∃ f : Nat → Nat, f 0 = 0 ∧ ∀ i, SearchStep dev tab name (f i) (f (i + 1))

end Xdvdfs.Spec
