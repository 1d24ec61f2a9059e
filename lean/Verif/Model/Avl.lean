import Verif.Basic

/-!
# The arena AVL tree: `/repo/xdvdfs-core/src/write/avl.rs`

Vector indexing out of bounds, failed assertions, `unwrap` of `None` and `unreachable!` are
`panic`.  `i32` heights are modelled as `Int` (a height never exceeds the number of nodes).
Loops carry an explicit iteration budget computed from the number of nodes; exhausting it is
`hang`, and theorem `C20_avl_never_panics` shows that this never happens.
-/

namespace Xdvdfs

/-- `AvlDirection`, `/repo/xdvdfs-core/src/write/avl.rs:7-11`. -/
inductive Dir where
  | left | right | leaf
  deriving DecidableEq, Repr

/-- `AvlNode`, `/repo/xdvdfs-core/src/write/avl.rs:14-20`. -/
structure AvlNode (α : Type) where
  left : Option Nat
  right : Option Nat
  parent : Option Nat
  height : Int
  data : α
  deriving DecidableEq, Repr

/-- `AvlTree`, `/repo/xdvdfs-core/src/write/avl.rs:55-58`. -/
structure Avl (α : Type) where
  root : Option Nat
  tree : List (AvlNode α)
  deriving DecidableEq, Repr

/-- `AvlTree::default`, `/repo/xdvdfs-core/src/write/avl.rs:60-67`. -/
def Avl.empty : Avl α := { root := none, tree := [] }

/-- `AvlNode::new`, `/repo/xdvdfs-core/src/write/avl.rs:23-31`. -/
def AvlNode.new (data : α) (parent : Option Nat) : AvlNode α :=
  { left := none, right := none, parent, height := 1, data }

/-- `child_from_direction`, `/repo/xdvdfs-core/src/write/avl.rs:33-39`. -/
def AvlNode.child (n : AvlNode α) : Dir → Option Nat
  | .left => n.left
  | .right => n.right
  | .leaf => none

namespace Avl

/-- Indexing `self.tree[i]` (reading). As at `/repo/xdvdfs-core/src/write/avl.rs:76`. -/
def get (A : Avl α) (i : Nat) : Res (AvlNode α) := Res.unwrap A.tree[i]?

/-- Indexing `self.tree[i]` (writing). As at `/repo/xdvdfs-core/src/write/avl.rs:209-211`. -/
def modify (A : Avl α) (i : Nat) (f : AvlNode α → AvlNode α) : Res (Avl α) :=
  if i < A.tree.length then .ok { A with tree := A.tree.modify i f } else .panic

/-- `parent_direction`, `/repo/xdvdfs-core/src/write/avl.rs:142-160`. -/
def parentDirection (A : Avl α) (i : Nat) : Res (Option (Nat × Dir)) := do
  let node ← A.get i
  match node.parent with
  | none => pure none
  | some p =>
    let pn ← A.get p
    if pn.left = some i then pure (some (p, .left))
    else if pn.right = some i then pure (some (p, .right))
    else .panic

/-- `*self.parent_node_ref(i) = v`, `/repo/xdvdfs-core/src/write/avl.rs:162-175`. -/
def setParentRef (A : Avl α) (i : Nat) (v : Option Nat) : Res (Avl α) := do
  let pd ← A.parentDirection i
  match pd with
  | none => pure { A with root := v }
  | some (p, .left) => A.modify p (fun n => { n with left := v })
  | some (p, .right) => A.modify p (fun n => { n with right := v })
  | some (_, .leaf) => .panic

/-- Height of an optional child (`/repo/xdvdfs-core/src/write/avl.rs:179-187,194-202`). -/
def heightOf (A : Avl α) : Option Nat → Res Int
  | none => .ok 0
  | some i => do
    let n ← A.get i
    pure n.height

/-- `update_node_height`, `/repo/xdvdfs-core/src/write/avl.rs:177-190`. -/
def updateHeight (A : Avl α) (i : Nat) : Res (Avl α) := do
  let node ← A.get i
  let lh ← A.heightOf node.left
  let rh ← A.heightOf node.right
  A.modify i (fun n => { n with height := 1 + max lh rh })

/-- `balance_factor`, `/repo/xdvdfs-core/src/write/avl.rs:192-205`. -/
def balanceFactor (A : Avl α) (i : Nat) : Res Int := do
  let node ← A.get i
  let lh ← A.heightOf node.left
  let rh ← A.heightOf node.right
  pure (lh - rh)

/-- `if let Some(idx) = to { self.tree[idx].parent = Some(node) }`.
`/repo/xdvdfs-core/src/write/avl.rs:209-211`, `/repo/xdvdfs-core/src/write/avl.rs:216-218`. -/
def setParentOpt (A : Avl α) (to : Option Nat) (node : Nat) : Res (Avl α) :=
  match to with
  | none => .ok A
  | some idx => A.modify idx (fun n => { n with parent := some node })

/-- `set_left_child`, `/repo/xdvdfs-core/src/write/avl.rs:207-212`. -/
def setLeftChild (A : Avl α) (node : Nat) (to : Option Nat) : Res (Avl α) := do
  let A ← A.modify node (fun n => { n with left := to })
  A.setParentOpt to node

/-- `set_right_child`, `/repo/xdvdfs-core/src/write/avl.rs:214-219`. -/
def setRightChild (A : Avl α) (node : Nat) (to : Option Nat) : Res (Avl α) := do
  let A ← A.modify node (fun n => { n with right := to })
  A.setParentOpt to node

/-- `l_rotate`, `/repo/xdvdfs-core/src/write/avl.rs:221-236`. -/
def lRotate (A : Avl α) (a b c : Nat) : Res (Avl α) := do
  let na ← A.get a
  Res.assert (na.right == some b)
  let nb ← A.get b
  Res.assert (nb.right == some c)
  let aParent := na.parent
  let A ← A.setParentRef a (some b)
  let A ← A.modify b (fun n => { n with parent := aParent })
  let nb ← A.get b
  let A ← A.setRightChild a nb.left
  let A ← A.setLeftChild b (some a)
  let A ← A.updateHeight a
  let A ← A.updateHeight c
  A.updateHeight b

/-- `r_rotate`, `/repo/xdvdfs-core/src/write/avl.rs:238-253`. -/
def rRotate (A : Avl α) (a b c : Nat) : Res (Avl α) := do
  let na ← A.get a
  Res.assert (na.left == some b)
  let nb ← A.get b
  Res.assert (nb.left == some c)
  let aParent := na.parent
  let A ← A.setParentRef a (some b)
  let A ← A.modify b (fun n => { n with parent := aParent })
  let nb ← A.get b
  let A ← A.setLeftChild a nb.right
  let A ← A.setRightChild b (some a)
  let A ← A.updateHeight a
  let A ← A.updateHeight c
  A.updateHeight b

/-- `rl_rotate`, `/repo/xdvdfs-core/src/write/avl.rs:255-275`. -/
def rlRotate (A : Avl α) (a b c : Nat) : Res (Avl α) := do
  let na ← A.get a
  Res.assert (na.right == some b)
  let nb ← A.get b
  Res.assert (nb.left == some c)
  let aParent := na.parent
  let A ← A.setParentRef a (some c)
  let A ← A.modify c (fun n => { n with parent := aParent })
  let nc ← A.get c
  let A ← A.setRightChild a nc.left
  let nc ← A.get c
  let A ← A.setLeftChild b nc.right
  let A ← A.setRightChild c (some b)
  let A ← A.setLeftChild c (some a)
  let A ← A.updateHeight a
  let A ← A.updateHeight b
  A.updateHeight c

/-- `lr_rotate`, `/repo/xdvdfs-core/src/write/avl.rs:277-297`. -/
def lrRotate (A : Avl α) (a b c : Nat) : Res (Avl α) := do
  let na ← A.get a
  Res.assert (na.left == some b)
  let nb ← A.get b
  Res.assert (nb.right == some c)
  let aParent := na.parent
  let A ← A.setParentRef a (some c)
  let A ← A.modify c (fun n => { n with parent := aParent })
  let nc ← A.get c
  let A ← A.setRightChild b nc.left
  let nc ← A.get c
  let A ← A.setLeftChild a nc.right
  let A ← A.setRightChild c (some a)
  let A ← A.setLeftChild c (some b)
  let A ← A.updateHeight a
  let A ← A.updateHeight b
  A.updateHeight c

/-- `perform_rotation`, `/repo/xdvdfs-core/src/write/avl.rs:299-320`. -/
def performRotation (A : Avl α) (a b c : Nat) (ab bc : Dir) : Res (Avl α) :=
  match ab, bc with
  | .left, .left => A.rRotate a b c
  | .left, .right => A.lrRotate a b c
  | .right, .left => A.rlRotate a b c
  | .right, .right => A.lRotate a b c
  | _, _ => .panic

/-- The loop of `rebalance`, `/repo/xdvdfs-core/src/write/avl.rs:332-344`. -/
def rebalanceLoop : Nat → Avl α → Option (Nat × Dir) → Option (Nat × Dir) → Res (Avl α)
  | _, A, none, _ => .ok A
  | 0, _, some _, _ => .hang
  | fuel + 1, A, some (idx, dir), prev => do
    let A ← A.updateHeight idx
    let bf ← A.balanceFactor idx
    let A ← (if bf < -1 ∨ 1 < bf then do
        let (b, prevDir) ← Res.unwrap prev
        let nb ← A.get b
        let c ← Res.unwrap (nb.child prevDir)
        A.performRotation idx b c dir prevDir
      else pure A)
    let next ← A.parentDirection idx
    rebalanceLoop fuel A next (some (idx, dir))

/-- `rebalance`, `/repo/xdvdfs-core/src/write/avl.rs:322-345`. -/
def rebalance (A : Avl α) (leaf : Nat) : Res (Avl α) := do
  let n ← A.get leaf
  Res.assert (n.left.isNone && n.right.isNone)
  rebalanceLoop (A.tree.length + 2) A (some (leaf, .leaf)) none

/-- The descent loop of `insert`, `/repo/xdvdfs-core/src/write/avl.rs:367-384`.  Returns `none` for
a duplicate, otherwise the tree with the new link set and the parent of the new node. -/
def insertDescend (cmp : α → α → Ordering) (data : α) :
    Nat → Avl α → Nat → Res (Option (Avl α × Nat))
  | 0, _, _ => .hang
  | fuel + 1, A, cur => do
    let node ← A.get cur
    match cmp data node.data with
    | .lt =>
      match node.left with
      | some idx => insertDescend cmp data fuel A idx
      | none => do
        let A' ← A.modify cur (fun n => { n with left := some A.tree.length })
        pure (some (A', cur))
    | .gt =>
      match node.right with
      | some idx => insertDescend cmp data fuel A idx
      | none => do
        let A' ← A.modify cur (fun n => { n with right := some A.tree.length })
        pure (some (A', cur))
    | .eq => pure none

/-- `insert`, `/repo/xdvdfs-core/src/write/avl.rs:350-390`.  `allocate` (lines 137-140) pushes at
the end, so its returned index is the old length and the assertions at 359 and 387 hold by
construction. `cmp` is `Ord::cmp` of the element type. -/
def insert (cmp : α → α → Ordering) (A : Avl α) (data : α) : Res (Bool × Avl α) :=
  match A.root with
  | none =>
    .ok (true, { root := some A.tree.length, tree := A.tree ++ [AvlNode.new data none] })
  | some root => do
    let r ← insertDescend cmp data (A.tree.length + 1) A root
    match r with
    | none => pure (false, A)
    | some (A', prev) =>
      let newIdx := A'.tree.length
      let A' := { A' with tree := A'.tree ++ [AvlNode.new data (some prev)] }
      let A' ← A'.rebalance newIdx
      pure (true, A')

/-- `if let Some(idx) = o { self.stack.push(idx) }`, `/repo/xdvdfs-core/src/write/avl.rs:528-534`. -/
def pushOpt (o : Option Nat) (stack : List Nat) : List Nat :=
  match o with
  | some i => i :: stack
  | none => stack

/-- `AvlPreorderIter` drained, `/repo/xdvdfs-core/src/write/avl.rs:405-412,522-541`; yields backing
indices.  The head of `stack` is its top. -/
def preorderLoop : Nat → Avl α → List Nat → Res (List Nat)
  | _, _, [] => .ok []
  | 0, _, _ :: _ => .hang
  | fuel + 1, A, top :: stack => do
    let node ← A.get top
    let rest ← preorderLoop fuel A (pushOpt node.left (pushOpt node.right stack))
    pure (top :: rest)

/-- `preorder_iter`, `/repo/xdvdfs-core/src/write/avl.rs:405-412`. -/
def preorder (A : Avl α) : Res (List Nat) := preorderLoop A.tree.length A A.root.toList

/-- `Vec::swap` of two in-bounds positions (`/repo/xdvdfs-core/src/write/avl.rs:433`). -/
def swapTree (A : Avl α) (a b : Nat) : Res (Avl α) := do
  let na ← A.get a
  let nb ← A.get b
  pure { A with tree := (A.tree.set a nb).set b na }

/-- The root update of `swap_backing_elements`, `/repo/xdvdfs-core/src/write/avl.rs:423-429`. -/
def swapRoot (root : Option Nat) (a b : Nat) : Option Nat :=
  match root with
  | some r => if r = a then some b else if r = b then some a else some r
  | none => none

/-- `swap_backing_elements`, `/repo/xdvdfs-core/src/write/avl.rs:418-451`. -/
def swapBacking (A : Avl α) (a b : Nat) : Res (Avl α) :=
  if a = b then .ok A
  else do
    let A := { A with root := swapRoot A.root a b }
    let A ← A.setParentRef a (some b)
    let A ← A.setParentRef b (some a)
    let A ← A.swapTree a b
    let na ← A.get a
    let A ← A.setParentOpt na.left a
    let na ← A.get a
    let A ← A.setParentOpt na.right a
    let nb ← A.get b
    let A ← A.setParentOpt nb.left b
    let nb ← A.get b
    A.setParentOpt nb.right b

/-- In-bounds vector write `v[i] = x`. As at `/repo/xdvdfs-core/src/write/avl.rs:468-471`. -/
def vset (v : List Nat) (i x : Nat) : Res (List Nat) :=
  if i < v.length then .ok (v.set i x) else .panic

/-- In-bounds vector read `v[i]`. As at `/repo/xdvdfs-core/src/write/avl.rs:464`. -/
def vget (v : List Nat) (i : Nat) : Res Nat := Res.unwrap v[i]?

/-- The loop of `reorder_backing_preorder`, `/repo/xdvdfs-core/src/write/avl.rs:463-472`. -/
def reorderLoop : List Nat → Nat → Avl α → List Nat → List Nat → Res (Avl α)
  | [], _, A, _, _ => .ok A
  | backing :: rest, i, A, mapping, inv => do
    let dest ← vget mapping backing
    let A ← A.swapBacking i dest
    let mapping ← vset mapping backing i
    let invI ← vget inv i
    let mapping ← vset mapping invI dest
    let inv ← vset inv dest invI
    let inv ← vset inv i backing
    reorderLoop rest (i + 1) A mapping inv

/-- `reorder_backing_preorder`, `/repo/xdvdfs-core/src/write/avl.rs:454-473`. -/
def reorder (A : Avl α) : Res (Avl α) := do
  let pre ← A.preorder
  let mapping := List.range pre.length
  reorderLoop pre 0 A mapping mapping

end Avl

end Xdvdfs
