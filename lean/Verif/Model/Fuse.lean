import Verif.Model.Read

/-!
# The mounted image: `/repo/xdvdfs-fsd/src/img_fs.rs`

The FUSE operations are functions from the inode cache and the request to the reply and the new cache.
The device and the volume never change while mounted.  Simplifications: time stamps, owner, permission
bits and log messages are left out; the request is what the `fuser` crate passes to the operation.
-/

namespace Xdvdfs

/-- `FuseFilesystemCache`, `/repo/xdvdfs-fsd/src/img_fs.rs:18-22`.  A hash map is a list of pairs in
which the first pair with a key counts; `insert` adds a pair in front. -/
structure FuseCache where
  byInode : List (Nat × DirEnt)
  byEntry : List (DirEnt × Nat)
  next : Nat
  deriving DecidableEq, Repr

/-- `FuseFilesystemCache::new`, `/repo/xdvdfs-fsd/src/img_fs.rs:62-68`. -/
def FuseCache.new : FuseCache := { byInode := [], byEntry := [], next := 2 }

/-- `FuseFilesystemCache::get_or_assign_inode`, `/repo/xdvdfs-fsd/src/img_fs.rs:70-96`.  The counter is a
`u64`: its overflow is a panic.  Entries are compared by header, name and offset, as the derived `Eq` of
`DirectoryEntryNode` does (`/repo/xdvdfs-core/src/layout.rs:93-98`). -/
def FuseCache.getOrAssign (c : FuseCache) (d : DirEnt) : Res (Nat × FuseCache) :=
  match c.byEntry.lookup d with
  | some i => .ok (i, c)
  | none =>
    if c.next + 1 < 2 ^ 64 then
      .ok (c.next, { byInode := (c.next, d) :: c.byInode, byEntry := (d, c.next) :: c.byEntry, next := c.next + 1 })
    else .panic

/-- `INodeLookupResult`, `/repo/xdvdfs-fsd/src/img_fs.rs:41-45`. -/
inductive InodeEntry where
  | value (d : DirEnt)
  | root
  | none
  deriving DecidableEq, Repr

/-- `lookup_dirent_by_inode`, `/repo/xdvdfs-fsd/src/img_fs.rs:126-136`. -/
def FuseCache.entry (c : FuseCache) (ino : Nat) : InodeEntry :=
  if ino = 1 then .root
  else match c.byInode.lookup ino with
    | some d => .value d
    | none => .none

/-- `lookup_dirtab_by_inode`, `/repo/xdvdfs-fsd/src/img_fs.rs:138-152` (it never returns an error). -/
def FuseCache.table (c : FuseCache) (root : Region) (ino : Nat) : Option Region :=
  if ino = 1 then some root
  else (c.byInode.lookup ino).bind (fun d => d.node.dirent.direntTable)

/-- The error numbers the operations reply with. Those of `/repo/xdvdfs-fsd/src/img_fs.rs:187-432`. -/
inductive Errno where
  | EINVAL | EIO | ENOTDIR | ENOENT | EISDIR | ENOTSUP
  deriving DecidableEq, Repr

/-- The attributes that depend on the entry: `new_file_attr`, `/repo/xdvdfs-fsd/src/img_fs.rs:154-184`. -/
structure FuseAttr where
  ino : Nat
  size : Nat
  blocks : Nat
  isDir : Bool
  deriving DecidableEq, Repr

/-- `new_file_attr`, `/repo/xdvdfs-fsd/src/img_fs.rs:154-184`. -/
def newFileAttr (ino size : Nat) (isDir : Bool) : FuseAttr :=
  { ino, size, blocks := (size + 2047) / 2048, isDir }

/-- One record of a directory reply: the arguments of `reply.add`,
`/repo/xdvdfs-fsd/src/img_fs.rs:362,367,405`.  `next` is the offset at which to resume after it. -/
structure DirRec where
  ino : Nat
  next : Nat
  isDir : Bool
  name : Str
  deriving DecidableEq, Repr

/-- Replies of the operations. Those of `/repo/xdvdfs-fsd/src/img_fs.rs:187-432`. -/
inductive FuseReply where
  | error (e : Errno)
  | entry (a : FuseAttr)
  | attr (a : FuseAttr)
  | data (b : Bytes)
  | dir (recs : List DirRec)
  | opened
  | empty
  deriving DecidableEq, Repr

/-- What is mounted: `device` and `volume.root_table` of `FuseFilesystem`,
`/repo/xdvdfs-fsd/src/img_fs.rs:24-33`; `fuel` bounds the loops in the reader. -/
structure Mount where
  dev : Dev
  root : Region
  fuel : Nat

/-- `FuseFilesystem::new`, `/repo/xdvdfs-fsd/src/img_fs.rs:100-124`: find the partition, read the volume
descriptor, start with an empty cache. -/
def mountImage (dev : Dev) (fuel : Nat) : Res (Mount × FuseCache) := do
  let base ← offsetNew dev
  let v ← readVolume (offsetDev dev base)
  pure ({ dev := offsetDev dev base, root := v.root, fuel }, .new)

/-- `lookup`, `/repo/xdvdfs-fsd/src/img_fs.rs:188-230`.  The name is `none` if it is not UTF-8. -/
def fuseLookup (m : Mount) (c : FuseCache) (parent : Nat) (name : Option Str) : Res (FuseReply × FuseCache) :=
  match name with
  | none => .ok (.error .EINVAL, c)
  | some name =>
    match c.table m.root parent with
    | none => .ok (.error .ENOTDIR, c)
    | some tab =>
      match walkPath m.dev tab name m.fuel with
      | .ok d => do
        let r ← c.getOrAssign d
        pure (.entry (newFileAttr r.1 d.node.dirent.data.size.toNat d.node.dirent.isDirectory), r.2)
      | .err _ => .ok (.error .EIO, c)
      | .panic => .panic
      | .hang => .hang

/-- `getattr`, `/repo/xdvdfs-fsd/src/img_fs.rs:232-258`. -/
def fuseGetattr (m : Mount) (c : FuseCache) (ino : Nat) : FuseReply :=
  match c.entry ino with
  | .value d => .attr (newFileAttr ino d.node.dirent.data.size.toNat d.node.dirent.isDirectory)
  | .root => .attr (newFileAttr 1 m.root.size.toNat true)
  | .none => .error .ENOENT

/-- `O_WRONLY | O_RDWR | O_CREAT | O_TRUNC` on Linux, `/repo/xdvdfs-fsd/src/img_fs.rs:263,324`. -/
def unsupportedFlags : UInt32 := 0x1 ||| 0x2 ||| 0x40 ||| 0x200

/-- `open` and `opendir`, `/repo/xdvdfs-fsd/src/img_fs.rs:260-270,315-331`.  The flags are the bits of an
`i32`. -/
def fuseOpen (flags : UInt32) : FuseReply :=
  if flags &&& unsupportedFlags ≠ 0 then .error .ENOTSUP else .opened

/-- `read`, `/repo/xdvdfs-fsd/src/img_fs.rs:272-313`. -/
def fuseRead (m : Mount) (c : FuseCache) (ino : Nat) (offset : Int) (size : Nat) : Res FuseReply :=
  match c.entry ino with
  | .root => .ok (.error .EISDIR)
  | .none => .ok (.error .ENOENT)
  | .value d =>
    if offset < 0 then .ok (.error .EINVAL)
    else match readDataOffset m.dev d.node.dirent size offset.toNat with
      | .ok b => .ok (.data b)
      | .err _ => .ok (.error .EIO)
      | .panic => .panic
      | .hang => .hang

/-- The loop that skips the entries before `offset`, `/repo/xdvdfs-fsd/src/img_fs.rs:372-384`: at most `n`
more entries; returns the index reached. -/
def skipRecords (m : Mount) : Nat → Nat → Scan → Res (Nat × Scan)
  | 0, idx, s => .ok (idx, s)
  | n + 1, idx, s => do
    let r ← s.next m.dev m.fuel
    match r with
    | (none, s) => pure (idx, s)
    | (some _, s) => skipRecords m n (idx + 1) s

/-- The loop that adds entries to the reply, `/repo/xdvdfs-fsd/src/img_fs.rs:388-417`.  `full recs r` says
that the reply buffer, which already holds `recs`, has no room for `r`.  Decoding a name never fails, so
the `continue` of line 400 is not taken. -/
def addRecords (m : Mount) (full : List DirRec → DirRec → Bool) :
    Nat → Nat → Scan → List DirRec → FuseCache → Res (FuseReply × FuseCache)
  | 0, _, _, _, _ => .hang
  | fuel + 1, idx, s, recs, c =>
    match s.next m.dev m.fuel with
    | .ok (some d, s) => do
      let r ← c.getOrAssign d
      let rec' : DirRec := { ino := r.1, next := idx + 1, isDir := d.node.dirent.isDirectory, name := d.nameStr }
      if full recs rec' then pure (.dir recs, r.2)
      else addRecords m full fuel (idx + 1) s (recs ++ [rec']) r.2
    | .ok (none, _) => .ok (.dir recs, c)
    | .err _ => .ok (.error .EIO, c)
    | .panic => .panic
    | .hang => .hang

/-- The records `.` and `..` at the start of a listing, `/repo/xdvdfs-fsd/src/img_fs.rs:359-370`; `none` if one
that is due does not fit (the `return`s of lines 363 and 368). -/
def dotRecords (ino : Nat) (offset : Int) (full : List DirRec → DirRec → Bool) : Option (List DirRec) :=
  let dot : DirRec := { ino, next := 1, isDir := true, name := ['.'] }
  let dotdot : DirRec := { ino, next := 2, isDir := true, name := ['.', '.'] }
  if offset = 0 then
    if full [] dot then none
    else if full [dot] dotdot then none
    else some [dot, dotdot]
  else if offset ≤ 1 then
    if full [] dotdot then none else some [dotdot]
  else some []

/-- `readdir`, `/repo/xdvdfs-fsd/src/img_fs.rs:333-420`.  Returning without `reply.ok()` (lines 363 and 368)
drops the reply object, which the `fuser` crate answers with `EIO`. -/
def fuseReaddir (m : Mount) (c : FuseCache) (ino : Nat) (offset : Int) (full : List DirRec → DirRec → Bool) :
    Res (FuseReply × FuseCache) :=
  match c.table m.root ino with
  | none => .ok (.error .ENOTDIR, c)
  | some tab =>
    match scanInit m.dev tab with
    | .panic => .panic
    | .hang => .hang
    | .err _ => .ok (.error .EIO, c)
    | .ok s =>
      match dotRecords ino offset full with
      | none => .ok (.error .EIO, c)
      | some recs =>
        match skipRecords m (offset - 2).toNat 2 s with
        | .panic => .panic
        | .hang => .hang
        | .err _ => .ok (.error .EIO, c)
        | .ok (idx, s) => addRecords m full m.fuel idx s recs c

/-- Requests. Those of `/repo/xdvdfs-fsd/src/img_fs.rs:187-432`. -/
inductive FuseOp where
  | lookup (parent : Nat) (name : Option Str)
  | getattr (ino : Nat)
  | open (ino : Nat) (flags : UInt32)
  | read (ino : Nat) (offset : Int) (size : Nat)
  | opendir (ino : Nat) (flags : UInt32)
  | readdir (ino : Nat) (offset : Int) (full : List DirRec → DirRec → Bool)
  | access (ino : Nat)

/-- Answer one request: `impl fuser::Filesystem for FuseFilesystem`,
`/repo/xdvdfs-fsd/src/img_fs.rs:187-432`. -/
def fuseStep (m : Mount) (c : FuseCache) : FuseOp → Res (FuseReply × FuseCache)
  | .lookup parent name => fuseLookup m c parent name
  | .getattr ino => .ok (fuseGetattr m c ino, c)
  | .open _ flags => .ok (fuseOpen flags, c)
  | .read ino offset size => do
    let r ← fuseRead m c ino offset size
    pure (r, c)
  | .opendir _ flags => .ok (fuseOpen flags, c)
  | .readdir ino offset full => fuseReaddir m c ino offset full
  | .access _ => .ok (.empty, c)

/-- Answer a history of requests, starting from the cache `c`. Those of
`/repo/xdvdfs-fsd/src/img_fs.rs:187-432`. -/
def fuseRun (m : Mount) (c : FuseCache) : List FuseOp → Res (List FuseReply × FuseCache)
  | [] => .ok ([], c)
  | op :: ops => do
    let r ← fuseStep m c op
    let r' ← fuseRun m r.2 ops
    pure (r.1 :: r'.1, r'.2)

end Xdvdfs
