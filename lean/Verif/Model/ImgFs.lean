import Verif.Model.Read
import Verif.Model.Pack
import Verif.Model.SectorLinear
import Verif.Model.Trie

/-!
# An image as the source of a pack: `/repo/xdvdfs-core/src/write/fs/xdvdfs.rs`
-/

namespace Xdvdfs

open PM

/-- `XDVDFSFilesystem`, `/repo/xdvdfs-core/src/write/fs/xdvdfs.rs:187-198`. -/
structure ImgFs where
  dev : Dev
  vol : VolDesc
  cache : Trie DirEnt

/-- `XDVDFSFilesystem::new`, `/repo/xdvdfs-core/src/write/fs/xdvdfs.rs:206-222`. -/
def ImgFs.new (dev : Dev) : Res (Option ImgFs) :=
  match readVolume dev with
  | .ok vol => .ok (some ⟨dev, vol, Trie.empty⟩)
  | .err _ => .ok none
  | .panic => .panic
  | .hang => .hang

/-- The `FileEntry` made for a directory entry, `/repo/xdvdfs-core/src/write/fs/xdvdfs.rs:270-278`. -/
def fileEntryOf (d : DirEnt) : FileEntry :=
  { name := d.nameStr, isDir := d.node.dirent.isDirectory, len := d.node.dirent.data.size.toNat }

/-- The loop of `read_dir`, `/repo/xdvdfs-core/src/write/fs/xdvdfs.rs:265-281`: every entry of the
scan goes into the cache and into the listing.  `acc` is the listing in reverse. -/
def readEntries (dev : Dev) : Nat → Scan → Trie DirEnt → List FileEntry →
    Res (Trie DirEnt × List FileEntry)
  | 0, _, _, _ => .hang
  | fuel + 1, s, node, acc => do
    let r ← s.next dev (fuel + 1)
    match r with
    | (none, _) => pure (node, acc.reverse)
    | (some d, s) => do
      let node ← node.insertTail d.nameStr d
      readEntries dev fuel s node (fileEntryOf d :: acc)

/-- Reading the directory table `tab` into the cache node of the directory.
`/repo/xdvdfs-core/src/write/fs/xdvdfs.rs:265-281`. -/
def readTable (dev : Dev) (fuel : Nat) (tab : Region) (node : Trie DirEnt) :
    Res (Trie DirEnt × List FileEntry) := do
  let s ← scanInit dev tab
  readEntries dev fuel s node []

/-- `XDVDFSFilesystem::read_dir`, `/repo/xdvdfs-core/src/write/fs/xdvdfs.rs:242-282`.  Simplification:
when it fails the cache it leaves behind is not modelled (a failed `read_dir` ends the pack). -/
def ImgFs.readDir (fuel : Nat) (fs : ImgFs) (dir : Path) : Res (List FileEntry × ImgFs) :=
  if dir = [] then do
    let (cache, entries) ← readTable fs.dev fuel fs.vol.root fs.cache
    pure (entries, { fs with cache })
  else do
    let r ← fs.cache.modifyDir (fun dirent node => do
      let tab ← Res.ofOption .isNotDirectory dirent.node.dirent.direntTable
      let x ← readTable fs.dev fuel tab node
      pure (some x)) dir
    match r with
    | none => .err .noDirent
    | some (cache, entries) => pure (entries, { fs with cache })

/-- `RWCopier::copy`, `/repo/xdvdfs-core/src/write/fs/xdvdfs.rs:80-105`: the chunks of at most 1 MiB
that are read from `offset + copied` on, and the outcome after them.  The destination is written
chunk by chunk (see `writeChunks`).  `fuel` bounds the number of chunks. -/
def chunkLoop (dev : Dev) (offset size : Nat) : Nat → Nat → List Bytes × Res Nat
  | 0, _ => ([], .hang)
  | fuel + 1, copied =>
    if copied < size then
      let toCopy := min (1024 * 1024) (size - copied)
      match dev.read (offset + copied) toCopy with
      | .ok b =>
        let (bs, r) := chunkLoop dev offset size fuel (copied + toCopy)
        (b :: bs, r)
      | .err e => ([], .err e)
      | .panic => ([], .panic)
      | .hang => ([], .hang)
    else if copied = size then ([], .ok copied)
    else ([], .panic)

/-- What a copier delivers: the bytes from `offset` on, in chunks, and the outcome after them.
`/repo/xdvdfs-core/src/write/fs/xdvdfs.rs:74-106`. -/
abbrev Copier := (offset size : Nat) → List Bytes × Res Nat

/-- `DefaultCopier`, `/repo/xdvdfs-core/src/write/fs/xdvdfs.rs:108-120`. -/
def defaultCopier (dev : Dev) : Copier := fun offset size => chunkLoop dev offset size (size + 1) 0

/-- `StdIOCopier`, `/repo/xdvdfs-core/src/write/fs/xdvdfs.rs:132-183`, on a file with the given
contents seen at offset `base` (0 without an `OffsetWrapper`): seek, then `std::io::copy` of
`take(size)`, which stops without an error at the end of the file and returns the number of bytes
copied.  `split` is how the data falls into separate writes.  Simplification: reading the source
does not fail, and `base + offset` does not overflow. -/
def stdIoCopier (content : Bytes) (base : Nat) (split : Bytes → List Bytes) : Copier := fun offset size =>
  (split (slice content (base + offset) size), .ok (slice content (base + offset) size).length)

/-- `XDVDFSFilesystem::copy_file_in`, `/repo/xdvdfs-core/src/write/fs/xdvdfs.rs:294-328`. -/
def ImgFs.copy (copier : Copier) (fs : ImgFs) (src : Path) (inOff size : Nat) : List Bytes × Res Nat :=
  match fs.cache.get src with
  | .ok none => ([], .err .noDirent)
  | .ok (some dirent) =>
    let sizeToCopy := min size dirent.node.dirent.data.size.toNat
    if sizeToCopy = 0 then ([], .ok 0)
    else match dirent.node.dirent.data.offset inOff with
      | .ok off => copier off sizeToCopy
      | .err e => ([], .err e)
      | .panic => ([], .panic)
      | .hang => ([], .hang)
  | .err e => ([], .err e)
  | .panic => ([], .panic)
  | .hang => ([], .hang)

/-- `BlockDeviceWrite for [u8]`, `/repo/xdvdfs-core/src/blockdev.rs:95-111`. -/
def memWrite (off : Nat) (buf dest : Bytes) : Res Bytes :=
  if off ≥ dest.length ∨ dest.length - off < buf.length then .err .io
  else .ok (dest.take off ++ buf ++ dest.drop (off + buf.length))

/-- The writes of `RWCopier::copy` to a `[u8]`. `/repo/xdvdfs-core/src/write/fs/xdvdfs.rs:97-99`. -/
def memWriteChunks : Nat → List Bytes → Bytes → Res Bytes
  | _, [], dest => .ok dest
  | off, c :: cs, dest => do
    let dest ← memWrite off c dest
    memWriteChunks (off + c.length) cs dest

/-- `FilesystemCopier<[u8]> for XDVDFSFilesystem`,
`/repo/xdvdfs-core/src/write/fs/xdvdfs.rs:286-328`: the filesystem that `compress` reads sectors
from when its source is an image (`/repo/xdvdfs-cli/src/cmd_compress.rs:116-128`). -/
def imgBufCopy (copier : Copier) (fs : ImgFs) : BufCopier := fun path dest inOff outOff size => do
  let dest ← memWriteChunks outOff (fs.copy copier path inOff size).1 dest
  let n ← (fs.copy copier path inOff size).2
  pure (n, dest)

/-- `RWCopier::copy` into a file: what the copier delivers is written chunk by chunk, and its outcome
is returned (`/repo/xdvdfs-core/src/write/fs/xdvdfs.rs:80-105`). -/
def copyRange (copier : Copier) (faults : Faults) (inOff outOff size : Nat) (f : ImgFile) : Res Nat × ImgFile :=
  match writeChunks faults outOff (copier inOff size).1 f with
  | (.ok (), f) => ((copier inOff size).2, f)
  | (.err e, f) => (.err e, f)
  | (.panic, f) => (.panic, f)
  | (.hang, f) => (.hang, f)

/-- `dir_tree` (`/repo/xdvdfs-core/src/write/img.rs:35-56`) on an image, whose `read_dir` updates the
cache. -/
def imgTreeLoop (wfuel : Nat) : Nat → ImgFs → List Path → List (Path × List FileEntry) →
    PM σ (List (Path × List FileEntry) × ImgFs)
  | _, fs, [], out => pure (out.reverse, fs)
  | 0, _, _ :: _, _ => lift .hang
  | fuel + 1, fs, dir :: dirs, out => do
    let (listing, fs) ← lift (fs.readDir wfuel dir)
    report (.discoveredDirectory listing.length)
    imgTreeLoop wfuel fuel fs ((subdirPaths dir listing).reverse ++ dirs) ((dir, listing) :: out)

/-- The image filesystem after scanning, as a source: the cache does not change any more. `readDir` is not
called again. `/repo/xdvdfs-core/src/write/fs/xdvdfs.rs:294-328`. -/
def ImgFs.source (readDir : Path → Res (List FileEntry)) (copier : Copier) (fs : ImgFs) : SourceFs where
  readDir := readDir
  pathToString := pathAsString
  copy := fs.copy copier

/-- `create_xdvdfs_image` with an image as the source and a file as the output: the repack of
`/repo/xdvdfs-cli/src/cmd_pack.rs:93-97`. -/
def repackImage (copier : Copier) (faults : Faults) (wfuel fuel : Nat) (fs : ImgFs) : PM ImgFile Unit := do
  let (dirtree, fs) ← imgTreeLoop wfuel fuel fs [[]] []
  createFrom (fileEnv (fs.source (fun _ => .err .other) copier) faults) dirtree

/-- The same into the sector map used for compression
(`/repo/xdvdfs-cli/src/cmd_compress.rs:116-128`); the filesystem is kept for reading the sectors. -/
def repackLinear (copier : Copier) (wfuel fuel : Nat) (fs : ImgFs) : PM SecMap ImgFs := do
  let (dirtree, fs) ← imgTreeLoop wfuel fuel fs [[]] []
  let src := fs.source (fun _ => .err .other) copier
  createFrom (linearEnv src.readDir src.pathToString) dirtree
  pure fs

end Xdvdfs
