import Verif.Model.Read

/-!
# Model of the image checksums

`/repo/xdvdfs-core/src/checksum.rs` and `/repo/xdvdfs-cli/src/cmd_md5.rs`.  The hash functions are not
modelled: a hash is an arbitrary function of the bytes fed to it, in order.
-/

namespace Xdvdfs

/-- The UTF-8 encoding of a string: `str::as_bytes`, used at
`/repo/xdvdfs-core/src/checksum.rs:29`. -/
def utf8Bytes (s : Str) : Bytes := s.flatMap String.utf8EncodeChar

/-- `Ord for str`: the lexicographic order of the bytes; the order of the keys of the `BTreeMap` at
`/repo/xdvdfs-core/src/checksum.rs:19`. -/
def cmpBytes : Bytes → Bytes → Ordering
  | [], [] => .eq
  | [], _ :: _ => .lt
  | _ :: _, [] => .gt
  | a :: as, b :: bs => if a < b then .lt else if b < a then .gt else cmpBytes as bs

/-- `BTreeMap::insert`, used at `/repo/xdvdfs-core/src/checksum.rs:23`: a sorted association list; the
value of a key that is already present is replaced.  Keys are represented by their UTF-8 bytes. -/
def bmapInsert (k : Bytes) (v : α) : List (Bytes × α) → List (Bytes × α)
  | [] => [(k, v)]
  | (k', v') :: m =>
    match cmpBytes k k' with
    | .lt => (k, v) :: (k', v') :: m
    | .eq => (k', v) :: m
    | .gt => (k', v') :: bmapInsert k v m

/-- The path under which a listed entry is known to the checksum,
`/repo/xdvdfs-core/src/checksum.rs:22`: `format!("{}/{}", dir, file.name_str()?)`.  (Decoding a name
never fails, see C03.) -/
def listedPath (x : Str × DirEnt) : Str := x.1 ++ '/' :: x.2.nameStr

/-- The loop that fills the map, `/repo/xdvdfs-core/src/checksum.rs:19-24`. -/
def checksumMap (tree : List (Str × DirEnt)) : List (Bytes × DirEnt) :=
  tree.foldl (fun m x => bmapInsert (utf8Bytes (listedPath x)) x.2 m) []

/-- The loop that feeds the hasher, `/repo/xdvdfs-core/src/checksum.rs:26-35`; the accumulator is the
sequence of bytes fed so far. -/
def checksumLoop (dev : Dev) : List (Bytes × DirEnt) → Bytes → Res Bytes
  | [], acc => .ok acc
  | (path, file) :: rest, acc => do
    let acc := acc ++ path
    if file.node.dirent.isDirectory then checksumLoop dev rest acc
    else do
      let data ← readDataAll dev file.node.dirent
      checksumLoop dev rest (acc ++ data)

/-- The bytes `checksum` feeds to the hash function, `/repo/xdvdfs-core/src/checksum.rs:11-35`. -/
def checksumInput (dev : Dev) (root : Region) (fuel : Nat) : Res Bytes := do
  let tree ← fileTree dev root fuel
  checksumLoop dev (checksumMap tree) []

/-- `checksum`, `/repo/xdvdfs-core/src/checksum.rs:11-42`, for an arbitrary hash function. -/
def checksum {H : Type} (hash : Bytes → H) (dev : Dev) (vol : VolDesc) (fuel : Nat) : Res H := do
  let input ← checksumInput dev vol.root fuel
  pure (hash input)

/-- `md5_file_tree`, `/repo/xdvdfs-cli/src/cmd_md5.rs:33-52`: the lines printed (hash and path) before
the outcome.  The directory is prefixed with the path the user asked for. -/
def md5Tree {H : Type} (hash : Bytes → H) (dev : Dev) (base : Str) : List (Str × DirEnt) → List (H × Str) →
    Res Unit × List (H × Str)
  | [], out => (.ok (), out)
  | x :: rest, out =>
    let dir := if base = [] then x.1 else if x.1 = [] then base else base ++ '/' :: x.1
    match readDataAll dev x.2.node.dirent with
    | .ok b => md5Tree hash dev base rest (out ++ [(hash b, dir ++ '/' :: x.2.nameStr)])
    | .err e => (.err e, out)
    | .panic => (.panic, out)
    | .hang => (.hang, out)

/-- `md5_from_file_path` and `md5_from_root_tree`, `/repo/xdvdfs-cli/src/cmd_md5.rs:54-93`; the lines
printed and the outcome. -/
def cmdMd5 {H : Type} (hash : Bytes → H) (dev : Dev) (vol : VolDesc) (path : Option Str) (fuel : Nat) :
    Res Unit × List (H × Str) :=
  match path with
  | none =>
    match fileTree dev vol.root fuel with
    | .ok tree => md5Tree hash dev [] tree []
    | .err e => (.err e, [])
    | .panic => (.panic, [])
    | .hang => (.hang, [])
  | some p =>
    match walkPath dev vol.root p fuel with
    | .ok d =>
      match d.node.dirent.direntTable with
      | some tab =>
        match fileTree dev tab fuel with
        | .ok tree => md5Tree hash dev p tree []
        | .err e => (.err e, [])
        | .panic => (.panic, [])
        | .hang => (.hang, [])
      | none =>
        match readDataAll dev d.node.dirent with
        | .ok b => (.ok (), [(hash b, p)])
        | .err e => (.err e, [])
        | .panic => (.panic, [])
        | .hang => (.hang, [])
    | .err e => (.err e, [])
    | .panic => (.panic, [])
    | .hang => (.hang, [])

end Xdvdfs
