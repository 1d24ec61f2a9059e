import Verif.Model.Path

/-!
# The path index `PathPrefixTree`: `/repo/xdvdfs-core/src/write/fs/mod.rs:188-318`
-/

namespace Xdvdfs

/-- `PathPrefixTree`, `/repo/xdvdfs-core/src/write/fs/mod.rs:188-192`: an array of 256 optional
children indexed by character, and the record of the name that ends here with the tree of its
subdirectory. -/
inductive Trie (α : Type) where
  | node (kids : List (Option (Trie α))) (record : Option (α × Trie α))

namespace Trie

variable {α β : Type}

/-- `children`, `/repo/xdvdfs-core/src/write/fs/mod.rs:190`. -/
def kids : Trie α → List (Option (Trie α))
  | node ks _ => ks

/-- `record`, `/repo/xdvdfs-core/src/write/fs/mod.rs:191`. -/
def record : Trie α → Option (α × Trie α)
  | node _ r => r

/-- `Default`, `/repo/xdvdfs-core/src/write/fs/mod.rs:224-231`. -/
def empty : Trie α := node (List.replicate 256 none) none

/-- `&node.children[ch as usize]`: an index of 256 or more panics. `/repo/xdvdfs-core/src/write/fs/mod.rs:241`. -/
def child (t : Trie α) (c : Char) : Res (Option (Trie α)) := Res.unwrap t.kids[c.toNat]?

/-- Following the characters of one component
(`/repo/xdvdfs-core/src/write/fs/mod.rs:240-243`). -/
def walkName : Str → Trie α → Res (Option (Trie α))
  | [], t => .ok (some t)
  | c :: cs, t => do
    match ← t.child c with
    | none => .ok none
    | some u => walkName cs u

/-- `lookup_node` (and `lookup_node_mut`), `/repo/xdvdfs-core/src/write/fs/mod.rs:235-274`. -/
def lookupNode : Path → Trie α → Res (Option (Trie α))
  | [], t => .ok (some t)
  | [c], t => walkName c t
  | c :: d :: ds, t => do
    match ← walkName c t with
    | none => .ok none
    | some u =>
      match u.record with
      | none => .ok none
      | some (_, s) => lookupNode (d :: ds) s

/-- `lookup_subdir`, `/repo/xdvdfs-core/src/write/fs/mod.rs:276-292`. -/
def lookupSubdir : Path → Trie α → Res (Option (Trie α))
  | [], t => .ok (some t)
  | c :: cs, t => do
    match ← walkName c t with
    | none => .ok none
    | some u =>
      match u.record with
      | none => .ok none
      | some (_, s) => lookupSubdir cs s

/-- `insert_tail`, `/repo/xdvdfs-core/src/write/fs/mod.rs:294-306`.  The Rust function returns a
mutable reference to the subdirectory tree of the record; `f` is what the caller does with it. -/
def insertTailWith (val : α) (f : Trie α → Res (Trie α)) : Str → Trie α → Res (Trie α)
  | [], node ks r =>
    match r with
    | some (v, s) => do
      let s ← f s
      .ok (node ks (some (v, s)))
    | none => do
      let s ← f empty
      .ok (node ks (some (val, s)))
  | c :: cs, node ks r =>
    match ks[c.toNat]? with
    | none => .panic
    | some (some u) => do
      let u ← insertTailWith val f cs u
      .ok (node (ks.set c.toNat (some u)) r)
    | some none => do
      let u ← insertTailWith val f cs empty
      .ok (node (ks.set c.toNat (some u)) r)

/-- `insert_tail` when the returned reference is not used. `/repo/xdvdfs-core/src/write/fs/mod.rs:294-306`. -/
def insertTail (name : Str) (val : α) (t : Trie α) : Res (Trie α) := insertTailWith val .ok name t

/-- `get`, `/repo/xdvdfs-core/src/write/fs/mod.rs:308-311`. -/
def get (path : Path) (t : Trie α) : Res (Option α) := do
  match ← lookupNode path t with
  | none => .ok none
  | some u => .ok (u.record.map Prod.fst)

/-- The children pushed for one node, `/repo/xdvdfs-core/src/write/fs/mod.rs:207-213`, in the order
of the array. -/
def pushKids (name : Str) : Nat → List (Option (Trie α)) → List (Str × Trie α)
  | _, [] => []
  | i, some u :: ks => (name ++ [Char.ofNat i], u) :: pushKids name (i + 1) ks
  | i, none :: ks => pushKids name (i + 1) ks

/-- All items of the iterator, `/repo/xdvdfs-core/src/write/fs/mod.rs:198-222`.  The head of `queue`
is the end of the Rust vector; `out` is the output in reverse. -/
def iterLoop : Nat → List (Str × Trie α) → List (Str × α) → Res (List (Str × α))
  | _, [], out => .ok out.reverse
  | 0, _ :: _, _ => .hang
  | fuel + 1, (name, t) :: queue, out =>
    let queue := (pushKids name 0 t.kids).reverse ++ queue
    match t.record with
    | some (v, _) => iterLoop fuel queue ((name, v) :: out)
    | none => iterLoop fuel queue out

/-- `iter`, `/repo/xdvdfs-core/src/write/fs/mod.rs:313-317`, collected. -/
def iter (t : Trie α) (fuel : Nat) : Res (List (Str × α)) := iterLoop fuel [([], t)] []

/-- Following one component through mutable references and updating the node there; `none` if there is no such
node. `/repo/xdvdfs-core/src/write/fs/mod.rs:261-264`. -/
def modifyName (f : Trie α → Res (Option (Trie α × β))) : Str → Trie α → Res (Option (Trie α × β))
  | [], t => f t
  | c :: cs, node ks r =>
    match ks[c.toNat]? with
    | none => .panic
    | some none => .ok none
    | some (some u) => do
      match ← modifyName f cs u with
      | none => .ok none
      | some (u, b) => .ok (some (node (ks.set c.toNat (some u)) r, b))

/-- Updating the subdirectory tree of the record of a node; `none` if it has no record.
`/repo/xdvdfs-core/src/write/fs/mod.rs:266-270`. -/
def modifyRecord (f : α → Trie α → Res (Option (Trie α × β))) : Trie α → Res (Option (Trie α × β))
  | node _ none => .ok none
  | node ks (some (v, s)) => do
    match ← f v s with
    | none => .ok none
    | some (s, b) => .ok (some (node ks (some (v, s)), b))

/-- `lookup_node_mut(dir)` (`/repo/xdvdfs-core/src/write/fs/mod.rs:255-274`), then the record of that
node, then `f` on its subdirectory tree: the way `XDVDFSFilesystem::read_dir` reaches the tree of a
directory other than the root (`/repo/xdvdfs-core/src/write/fs/xdvdfs.rs:251-262`). -/
def modifyDir (f : α → Trie α → Res (Option (Trie α × β))) : Path → Trie α → Res (Option (Trie α × β))
  | [], t => modifyRecord f t
  | [c], t => modifyName (modifyRecord f) c t
  | c :: d :: ds, t => modifyName (modifyRecord (fun _ s => modifyDir f (d :: ds) s)) c t

/-- Inserting `name` into directory `dir` of the index, as `XDVDFSFilesystem::read_dir` does
(`/repo/xdvdfs-core/src/write/fs/xdvdfs.rs:243-269`); `none` if there is no such directory. -/
def insertAt (dir : Path) (name : Str) (val : α) (t : Trie α) : Res (Option (Trie α)) :=
  if dir = [] then do
    let t ← t.insertTail name val
    .ok (some t)
  else do
    match ← modifyDir (fun _ s => do
      let s ← s.insertTail name val
      .ok (some (s, ()))) dir t with
    | none => .ok none
    | some (t, _) => .ok (some t)

end Trie

end Xdvdfs
