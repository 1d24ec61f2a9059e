import Verif.Basic

/-!
# Paths and ordered maps: `/repo/xdvdfs-core/src/write/fs/mod.rs` and `BTreeMap`
-/

namespace Xdvdfs

/-- `PathVec`, `/repo/xdvdfs-core/src/write/fs/mod.rs:35-38`: the list of its components. -/
abbrev Path := List Str

/-- `impl Ord for String`: lexicographic comparison of the UTF-8 bytes, which orders strings like lexicographic
comparison of their code points (UTF-8 preserves code point order). Derived at
`/repo/xdvdfs-core/src/write/fs/mod.rs:35`. -/
def cmpStr : Str → Str → Ordering
  | [], [] => .eq
  | [], _ :: _ => .lt
  | _ :: _, [] => .gt
  | a :: as, b :: bs =>
    match compare a.toNat b.toNat with
    | .eq => cmpStr as bs
    | o => o

/-- `#[derive(Ord)]` of `PathVec`, `/repo/xdvdfs-core/src/write/fs/mod.rs:35`: lexicographic by
component. -/
def cmpPath : Path → Path → Ordering
  | [], [] => .eq
  | [], _ :: _ => .lt
  | _ :: _, [] => .gt
  | a :: as, b :: bs =>
    match cmpStr a b with
    | .eq => cmpPath as bs
    | o => o

/-- `PathVec::from_base`, `/repo/xdvdfs-core/src/write/fs/mod.rs:69-73`. -/
def fromBase (p : Path) (name : Str) : Path := p ++ [name]

/-- `PathVec::is_root`, `/repo/xdvdfs-core/src/write/fs/mod.rs:61-63`. -/
def Path.isRoot (p : Path) : Bool := p.isEmpty

/-- `[String]::join("/")`. Called at `/repo/xdvdfs-core/src/write/fs/mod.rs:76`. -/
def joinSlash : Path → Str
  | [] => []
  | [c] => c
  | c :: cs => c ++ '/' :: joinSlash cs

/-- `PathVec::as_string`, `/repo/xdvdfs-core/src/write/fs/mod.rs:75-77`. -/
def pathAsString (p : Path) : Str := '/' :: joinSlash p

/-- `PathVec::base`, `/repo/xdvdfs-core/src/write/fs/mod.rs:79-83`: `len - 1` underflows for the
root path. -/
def pathBase (p : Path) : Res Path := if p = [] then .panic else .ok p.dropLast

/-- `PathVec::suffix`, `/repo/xdvdfs-core/src/write/fs/mod.rs:85-104`. -/
def pathSuffix : Path → Path → Res Path
  | [], _ => .ok []
  | c :: cs, [] => do
    let r ← pathSuffix cs []
    pure (c :: r)
  | c :: cs, d :: ds => if c = d then pathSuffix cs ds else .panic

/-- `FromIterator for PathVec`, `/repo/xdvdfs-core/src/write/fs/mod.rs:107-116`. -/
def pathFromIter (segs : List Str) : Path := segs.filter (fun s => !s.isEmpty)

/-- `BTreeMap<PathVec, V>` as the list of its entries in key order. As at
`/repo/xdvdfs-core/src/write/img.rs:62`, `/repo/xdvdfs-core/src/write/img.rs:133-142`. -/
abbrev PathMap (β : Type) := List (Path × β)

/-- `BTreeMap::insert`: keeps the order, replaces the value of an equal key. Called at
`/repo/xdvdfs-core/src/write/img.rs:98`, `/repo/xdvdfs-core/src/write/img.rs:142`,
`/repo/xdvdfs-core/src/write/img.rs:170`. -/
def PathMap.insert (k : Path) (v : β) : PathMap β → PathMap β
  | [] => [(k, v)]
  | (k', v') :: m =>
    match cmpPath k k' with
    | .lt => (k, v) :: (k', v') :: m
    | .eq => (k', v) :: m
    | .gt => (k', v') :: PathMap.insert k v m

/-- `BTreeMap::get`. Called at `/repo/xdvdfs-core/src/write/img.rs:84`,
`/repo/xdvdfs-core/src/write/img.rs:146`. -/
def PathMap.get (k : Path) : PathMap β → Option β
  | [] => none
  | (k', v) :: m => if cmpPath k k' = .eq then some v else PathMap.get k m

end Xdvdfs
