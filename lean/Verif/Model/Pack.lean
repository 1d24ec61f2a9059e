import Verif.Model.Path
import Verif.Model.Dirtab

/-!
# Image creation: `/repo/xdvdfs-core/src/write/img.rs`

`create_xdvdfs_image` is generic in the source filesystem and in the output device; so is the
model: both are the operations of a `PackEnv σ`, acting on a device state `σ`.
-/

namespace Xdvdfs

/-- `ProgressInfo`, `/repo/xdvdfs-core/src/write/img.rs:16-25`. -/
inductive Progress where
  | discoveredDirectory (n : Nat)
  | fileCount (n : Nat)
  | dirCount (n : Nat)
  | dirAdded (path : Str) (sector : Nat)
  | fileAdded (path : Str) (sector : Nat)
  | finishedPacking
  deriving DecidableEq, Repr

/-- `FileEntry`, `/repo/xdvdfs-core/src/write/fs/mod.rs:42-47`; `len` is a `u64`. -/
structure FileEntry where
  name : Str
  isDir : Bool
  len : Nat
  deriving DecidableEq, Repr

/-- The source filesystem and output device handed to `create_xdvdfs_image`:
`FilesystemHierarchy` (`/repo/xdvdfs-core/src/write/fs/mod.rs:124-134`), `FilesystemCopier`
(lines 158-171) and `BlockDeviceWrite` (`/repo/xdvdfs-core/src/blockdev.rs:33-37`).
Simplification: the source does not change while it is packed, so `readDir` is a function. -/
structure PackEnv (σ : Type) where
  readDir : Path → Res (List FileEntry)
  pathToString : Path → Str
  write : Nat → Bytes → σ → Res Unit × σ
  copyIn : Path → (inOff outOff size : Nat) → σ → Res Nat × σ
  len : σ → Res Nat

/-- The state threaded through packing: the device and the progress reports made so far. Carries what
`/repo/xdvdfs-core/src/write/img.rs:113-208` passes on as `image` and `progress_callback`. -/
structure PackState (σ : Type) where
  dev : σ
  log : List Progress

/-- Computations that act on the pack state; the state survives errors and panics. Carries what
`/repo/xdvdfs-core/src/write/img.rs:113-208` passes on as `image` and `progress_callback`. -/
def PM (σ α : Type) := PackState σ → Res α × PackState σ

namespace PM

protected def pure (a : α) : PM σ α := fun s => (.ok a, s)

/-- Sequencing with `?`: stop at the first outcome that is not `ok`. -/
protected def bind (x : PM σ α) (f : α → PM σ β) : PM σ β := fun s =>
  match x s with
  | (.ok a, s') => f a s'
  | (.err e, s') => (.err e, s')
  | (.panic, s') => (.panic, s')
  | (.hang, s') => (.hang, s')

/-- `?` in the functions of `/repo/xdvdfs-core/src/write/img.rs:113-208`. -/
instance : Monad (PM σ) where
  pure := PM.pure
  bind := PM.bind

/-- A computation that does not touch the state. Carries what `/repo/xdvdfs-core/src/write/img.rs:113-208`
passes on as `image` and `progress_callback`. -/
def lift (r : Res α) : PM σ α := fun s => (r, s)

/-- `progress_callback(p)`. As at `/repo/xdvdfs-core/src/write/img.rs:149`,
`/repo/xdvdfs-core/src/write/img.rs:164`. -/
def report (p : Progress) : PM σ Unit := fun s => (.ok (), { s with log := s.log ++ [p] })

/-- A device operation. Carries what `/repo/xdvdfs-core/src/write/img.rs:113-208` passes on as `image` and
`progress_callback`. -/
def onDev (f : σ → Res α × σ) : PM σ α := fun s => ((f s.dev).1, { s with dev := (f s.dev).2 })

end PM

open PM

/-- The subdirectories of a listing as paths, in listing order
(`/repo/xdvdfs-core/src/write/img.rs:46-50`). -/
def subdirPaths (dir : Path) (listing : List FileEntry) : List Path :=
  (listing.filter (·.isDir)).map (fun e => fromBase dir e.name)

/-- The loop of `dir_tree`, `/repo/xdvdfs-core/src/write/img.rs:42-53`.  The head of `dirs` is the
end of the Rust vector; `out` is the output vector in reverse. -/
def dirTreeLoop (env : PackEnv σ) : Nat → List Path → List (Path × List FileEntry) →
    PM σ (List (Path × List FileEntry))
  | _, [], out => pure out.reverse
  | 0, _ :: _, _ => lift .hang
  | fuel + 1, dir :: dirs, out => do
    let listing ← lift (env.readDir dir)
    report (.discoveredDirectory listing.length)
    dirTreeLoop env fuel ((subdirPaths dir listing).reverse ++ dirs) ((dir, listing) :: out)

/-- `dir_tree`, `/repo/xdvdfs-core/src/write/img.rs:35-56`. -/
def dirTree (env : PackEnv σ) (fuel : Nat) : PM σ (List (Path × List FileEntry)) :=
  dirTreeLoop env fuel [[]] []

/-- Adding one entry in `create_dirent_tables`, `/repo/xdvdfs-core/src/write/img.rs:72-94`. -/
def addEntry (tables : PathMap TabWriter) (path : Path) (w : TabWriter) (e : FileEntry) :
    Res TabWriter :=
  if e.isDir then do
    let sub ← Res.unwrap (tables.get (fromBase path e.name))
    let size ← sub.dirtabSize
    w.addDir e.name size
  else if e.len < 2 ^ 32 then w.addFile e.name (UInt32.ofNat e.len)
  else .err .fileTooLarge

/-- The inner loop of `create_dirent_tables`, `/repo/xdvdfs-core/src/write/img.rs:71-95`. -/
def addEntries (tables : PathMap TabWriter) (path : Path) : TabWriter → List FileEntry → Res TabWriter
  | w, [] => .ok w
  | w, e :: es => do
    let w ← addEntry tables path w e
    addEntries tables path w es

/-- The outer loop of `create_dirent_tables`, `/repo/xdvdfs-core/src/write/img.rs:65-99`, over the
reversed directory list. -/
def tablesLoop : List (Path × List FileEntry) → PathMap TabWriter → Res (PathMap TabWriter)
  | [], tables => .ok tables
  | (path, listing) :: rest, tables => do
    let w ← addEntries tables path TabWriter.new listing
    let w ← w.computeSize
    tablesLoop rest (tables.insert path w)

/-- `create_dirent_tables`, `/repo/xdvdfs-core/src/write/img.rs:58-104`.  `count` (lines 63 and 73)
is the total number of entries. -/
def createDirentTables (dirtree : List (Path × List FileEntry)) : PM σ (PathMap TabWriter) := do
  let tables ← lift (tablesLoop dirtree.reverse [])
  report (.fileCount (dirtree.map (fun d => d.2.length)).sum)
  report (.dirCount dirtree.length)
  pure tables

/-- The inner loop of `create_xdvdfs_image`, `/repo/xdvdfs-core/src/write/img.rs:162-182`; returns
the updated `dir_sectors`. -/
def packListing (env : PackEnv σ) (path : Path) : PathMap Nat → List Listing → PM σ (PathMap Nat)
  | dirSectors, [] => pure dirSectors
  | dirSectors, entry :: rest => do
    let filePath := fromBase path entry.name
    report (.fileAdded (env.pathToString filePath) entry.sector)
    if entry.isDir then
      packListing env path (dirSectors.insert filePath entry.sector) rest
    else do
      let _ ← onDev (env.copyIn filePath 0 (entry.sector * sectorSize) entry.size)
      packListing env path dirSectors rest

/-- The outer loop of `create_xdvdfs_image`, `/repo/xdvdfs-core/src/write/img.rs:144-183`. -/
def packDirs (env : PackEnv σ) : PathMap TabWriter → PathMap Nat → Nat → PM σ Unit
  | [], _, _ => pure ()
  | (path, w) :: rest, dirSectors, next => do
    let sector ← lift (Res.unwrap (dirSectors.get path))
    let (repr, next) ← lift (w.diskRepr next)
    report (.dirAdded (env.pathToString path) sector)
    onDev (env.write (sector * sectorSize) repr.entryTable)
    let dirSectors ← packListing env path dirSectors repr.fileListing
    packDirs env rest dirSectors next

/-- `BlockDeviceWrite::len`. Called at `/repo/xdvdfs-core/src/write/img.rs:195`. -/
def devLen (env : PackEnv σ) : PM σ Nat := fun s => (env.len s.dev, s)

/-- The final padding, `/repo/xdvdfs-core/src/write/img.rs:195-204`. -/
def padImage (env : PackEnv σ) : PM σ Unit := do
  let len ← devLen env
  if len % (32 * 2048) > 0 then
    onDev (env.write len (List.replicate (32 * 2048 - len % (32 * 2048)) 0))
  else pure ()

/-- `create_xdvdfs_image` after the source has been scanned,
`/repo/xdvdfs-core/src/write/img.rs:130-207`.  Serializing the volume descriptor cannot fail. -/
def createFrom (env : PackEnv σ) (dirtree : List (Path × List FileEntry)) : PM σ Unit := do
  let tables ← createDirentTables dirtree
  let (rootPath, rootTab) ← lift (Res.unwrap tables.head?)
  let rootSize ← lift rootTab.dirtabSize
  let (rootSector, next) ← lift (allocate allocInit rootSize)
  packDirs env tables (PathMap.insert rootPath rootSector []) next
  onDev (env.write (32 * sectorSize)
    (VolDesc.new ⟨UInt32.ofNat rootSector, UInt32.ofNat rootSize⟩).ser)
  padImage env
  report .finishedPacking

/-- `create_xdvdfs_image`, `/repo/xdvdfs-core/src/write/img.rs:113-207`.  `fuel` bounds the number of
directories scanned. -/
def createImage (env : PackEnv σ) (fuel : Nat) : PM σ Unit := do
  let dirtree ← dirTree env fuel
  createFrom env dirtree

/-! ## A file as output device -/

/-- Writing `data` at byte `off` of a file: a gap after the old end is filled with zeros, an empty write changes
nothing. `/repo/xdvdfs-core/src/blockdev.rs:248-254`. -/
def writeAt (img : Bytes) (off : Nat) (data : Bytes) : Bytes :=
  if data = [] then img
  else img.take off ++ (List.replicate (off - img.length) 0 ++ (data ++ img.drop (off + data.length)))

/-- An output file: its bytes and the writes made so far. `/repo/xdvdfs-core/src/blockdev.rs:245-259`. -/
structure ImgFile where
  img : Bytes
  trace : List (Nat × Bytes)
  deriving DecidableEq, Repr

/-- When the `k`-th write fails (`some m`), only its first `m` bytes reach the file. Of the calls at
`/repo/xdvdfs-core/src/blockdev.rs:250-251`. -/
abbrev Faults := Nat → Option Nat

/-- `BlockDeviceWrite for File`, `/repo/xdvdfs-core/src/blockdev.rs:248-254` (seek, then
`write_all`). -/
def fileWrite (faults : Faults) (off : Nat) (data : Bytes) (f : ImgFile) : Res Unit × ImgFile :=
  match faults f.trace.length with
  | none => (.ok (), { img := writeAt f.img off data, trace := f.trace ++ [(off, data)] })
  | some m => (.err .io, { img := writeAt f.img off (data.take m), trace := f.trace ++ [(off, data.take m)] })

/-- Writing the chunks delivered by a source file one after the other (`std::io::copy`,
`/repo/xdvdfs-core/src/write/fs/stdfs.rs:93-100`, or `RWCopier::copy`,
`/repo/xdvdfs-core/src/write/fs/xdvdfs.rs:87-103`). -/
def writeChunks (faults : Faults) : Nat → List Bytes → ImgFile → Res Unit × ImgFile
  | _, [], f => (.ok (), f)
  | off, c :: cs, f =>
    match fileWrite faults off c f with
    | (.ok (), f) => writeChunks faults (off + c.length) cs f
    | (e, f) => (e, f)

/-- A source filesystem. `copy path off size` is what copying `size` bytes from offset `off` of the file at
`path` delivers: the chunks read, and the outcome after them (the number of bytes, or a read error). The traits
`/repo/xdvdfs-core/src/write/fs/mod.rs:124-134`, `/repo/xdvdfs-core/src/write/fs/mod.rs:155-168`. -/
structure SourceFs where
  readDir : Path → Res (List FileEntry)
  pathToString : Path → Str
  copy : Path → (off size : Nat) → List Bytes × Res Nat

/-- Packing a source filesystem into a file. The file is that of `/repo/xdvdfs-core/src/blockdev.rs:245-259`. -/
def fileEnv (fs : SourceFs) (faults : Faults) : PackEnv ImgFile where
  readDir := fs.readDir
  pathToString := fs.pathToString
  write := fileWrite faults
  copyIn := fun path inOff outOff size f =>
    match writeChunks faults outOff (fs.copy path inOff size).1 f with
    | (.ok (), f) => ((fs.copy path inOff size).2, f)
    | (.err e, f) => (.err e, f)
    | (.panic, f) => (.panic, f)
    | (.hang, f) => (.hang, f)
  len := fun f => .ok f.img.length

end Xdvdfs
