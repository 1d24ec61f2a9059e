import Verif.Model.Avl

/-!
# Specification of the directory index

Plain binary trees, what it means for an arena to hold one, and what a set of accepted
elements is.  Nothing here mentions rotations or rebalancing.
-/

namespace Xdvdfs.Spec

/-- Plain binary trees. -/
inductive BT (α : Type) where
  | nil
  | node (l : BT α) (x : α) (r : BT α)
  deriving DecidableEq, Repr

namespace BT

def inorder : BT α → List α
  | nil => []
  | node l x r => l.inorder ++ x :: r.inorder

def preorder : BT α → List α
  | nil => []
  | node l x r => x :: (l.preorder ++ r.preorder)

def size : BT α → Nat
  | nil => 0
  | node l _ r => l.size + r.size + 1

/-- Number of nodes on the longest path from the root. -/
def height : BT α → Nat
  | nil => 0
  | node l _ r => max l.height r.height + 1

/-- Sibling subtrees differ in height by at most one, everywhere. -/
def Balanced : BT α → Prop
  | nil => True
  | node l _ r => l.height ≤ r.height + 1 ∧ r.height ≤ l.height + 1 ∧ l.Balanced ∧ r.Balanced

/-- Nodes a search for `x` compares against. -/
def searchCost (cmp : α → α → Ordering) (x : α) : BT α → Nat
  | nil => 0
  | node l y r =>
    match cmp x y with
    | .lt => l.searchCost cmp x + 1
    | .gt => r.searchCost cmp x + 1
    | .eq => 1

end BT

/-- The nodes reachable from pointer `ptr` in `tree` form exactly the binary tree `t`; the parent
link of the top node is `parent`, every other parent link inverts a child link, and every recorded
height is the true height. -/
inductive Holds (tree : List (AvlNode α)) : (parent ptr : Option Nat) → BT α → Prop
  | nil {p} : Holds tree p none .nil
  | node {p i n l r} (hget : tree[i]? = some n) (hp : n.parent = p)
      (hh : n.height = ((max l.height r.height + 1 : Nat) : Int))
      (hl : Holds tree (some i) n.left l) (hr : Holds tree (some i) n.right r) :
      Holds tree p (some i) (.node l n.data r)

/-- `A` holds the binary tree `t` and nothing else. -/
def IsTree (A : Avl α) (t : BT α) : Prop :=
  Holds A.tree none A.root t ∧ A.tree.length = t.size ∧
    ∀ i < A.tree.length, ∃ n, A.tree[i]? = some n ∧ n.data ∈ t.inorder

/-- Adding `x` to a duplicate-free collection, in order of acceptance. -/
def accept (cmp : α → α → Ordering) (xs : List α) (x : α) : Bool × List α :=
  if xs.any (fun y => cmp x y == .eq) then (false, xs) else (true, xs ++ [x])

/-- Adding several elements one after the other; the booleans report acceptance. -/
def acceptAll (cmp : α → α → Ordering) : List α → List α → List Bool × List α
  | acc, [] => ([], acc)
  | acc, x :: xs =>
    let r := accept cmp acc x
    let rest := acceptAll cmp r.2 xs
    (r.1 :: rest.1, rest.2)

/-- Calling `insert` for each element in turn on an index, collecting the returned booleans. -/
def insertAll (cmp : α → α → Ordering) : Avl α → List α → Res (List Bool × Avl α)
  | A, [] => .ok ([], A)
  | A, x :: xs => do
    let (b, A') ← A.insert cmp x
    let (bs, A'') ← insertAll cmp A' xs
    pure (b :: bs, A'')

end Xdvdfs.Spec
