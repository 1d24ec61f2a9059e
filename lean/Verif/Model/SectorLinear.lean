import Verif.Model.Pack

/-!
# The sector map used for compression: `/repo/xdvdfs-core/src/write/fs/sector_linear.rs`

`compress` packs into a map from sectors to their contents instead of a file, and the CISO encoder
then asks for the sectors one by one.
-/

namespace Xdvdfs

/-- `SectorLinearBlockContents`, `/repo/xdvdfs-core/src/write/fs/sector_linear.rs:11-15`.  `Empty` is
the absence of an entry: no code stores it. -/
inductive Block where
  | raw (data : Bytes)
  | file (path : Path) (idx : Nat)
  deriving DecidableEq, Repr

/-- `SectorLinearBlockDevice`, `/repo/xdvdfs-core/src/write/fs/sector_linear.rs:17-20`: the
`BTreeMap` as its entries in key order. -/
abbrev SecMap := List (Nat × Block)

/-- `BTreeMap::get`. Called at `/repo/xdvdfs-core/src/write/fs/sector_linear.rs:159`. -/
def SecMap.get (k : Nat) : SecMap → Option Block
  | [] => none
  | (k', b) :: m => if k = k' then some b else SecMap.get k m

/-- `BTreeMap::insert`; whether the key was present is read off with `get` before. Called at
`/repo/xdvdfs-core/src/write/fs/sector_linear.rs:77`, `/repo/xdvdfs-core/src/write/fs/sector_linear.rs:137`. -/
def SecMap.insert (k : Nat) (b : Block) : SecMap → SecMap
  | [] => [(k, b)]
  | (k', b') :: m =>
    if k < k' then (k, b) :: (k', b') :: m
    else if k = k' then (k, b) :: m
    else (k', b') :: SecMap.insert k b m

/-- Inserting where overwriting is `unimplemented!`
(`/repo/xdvdfs-core/src/write/fs/sector_linear.rs:75-81` and `:135-141`). -/
def SecMap.put (k : Nat) (b : Block) (m : SecMap) : Res Unit × SecMap :=
  if (m.get k).isSome then (.panic, m.insert k b) else (.ok (), m.insert k b)

/-- `len_impl`, `/repo/xdvdfs-core/src/write/fs/sector_linear.rs:36-48`. -/
def linLen (m : SecMap) : Nat :=
  match m.getLast? with
  | some (k, _) => k * 2048 + 2048
  | none => 0

/-- A sector buffer of zeros with `d` copied to its start
(`/repo/xdvdfs-core/src/write/fs/sector_linear.rs:67-73`). -/
def padSector (d : Bytes) : Bytes := d ++ List.replicate (2048 - d.length) 0

/-- The loop of `write`, `/repo/xdvdfs-core/src/write/fs/sector_linear.rs:64-86`; `buf` is the part
of the buffer not yet written, and its length bounds the number of rounds. -/
def linWriteLoop : Nat → Nat → Bytes → SecMap → Res Unit × SecMap
  | 0, _, buf, m => if buf = [] then (.ok (), m) else (.hang, m)
  | fuel + 1, sector, buf, m =>
    if buf = [] then (.ok (), m)
    else match m.put sector (.raw (padSector (buf.take 2048))) with
      | (.ok (), m) => linWriteLoop fuel (sector + 1) (buf.drop 2048) m
      | (e, m) => (e, m)

/-- `BlockDeviceWrite for SectorLinearBlockDevice`,
`/repo/xdvdfs-core/src/write/fs/sector_linear.rs:55-89`. -/
def linWrite (off : Nat) (buf : Bytes) (m : SecMap) : Res Unit × SecMap :=
  if off % 2048 ≠ 0 then (.panic, m) else linWriteLoop buf.length (off / 2048) buf m

/-- The loop of `copy_file_in`, `/repo/xdvdfs-core/src/write/fs/sector_linear.rs:134-142`: `n` rounds
left, the next one with index `i`. -/
def linCopyLoop (src : Path) (sector : Nat) : Nat → Nat → SecMap → Res Unit × SecMap
  | 0, _, m => (.ok (), m)
  | n + 1, i, m =>
    match m.put (sector + i) (.file src i) with
    | (.ok (), m) => linCopyLoop src sector n (i + 1) m
    | (e, m) => (e, m)

/-- `copy_file_in`, `/repo/xdvdfs-core/src/write/fs/sector_linear.rs:115-145`. -/
def linCopyIn (src : Path) (inOff outOff size : Nat) (m : SecMap) : Res Nat × SecMap :=
  if inOff ≠ 0 then (.panic, m)
  else if outOff % 2048 ≠ 0 then (.panic, m)
  else
    let span := if size % 2048 > 0 then size / 2048 + 1 else size / 2048
    match linCopyLoop src (outOff / 2048) span 0 m with
    | (.ok (), m) => (.ok size, m)
    | (.err e, m) => (.err e, m)
    | (.panic, m) => (.panic, m)
    | (.hang, m) => (.hang, m)

/-- Packing into a sector map: `SectorLinearBlockFilesystem` as source
(`/repo/xdvdfs-core/src/write/fs/sector_linear.rs:96-106`) and `SectorLinearBlockDevice` as
destination. -/
def linearEnv (readDir : Path → Res (List FileEntry)) (pathToString : Path → Str) : PackEnv SecMap where
  readDir := readDir
  pathToString := pathToString
  write := linWrite
  copyIn := linCopyIn
  len := fun m => .ok (linLen m)

/-- `FilesystemCopier<[u8]>::copy_file_in(src, dest, input_offset, output_offset, size)`: the number returned,
and the contents of `dest` afterwards. `/repo/xdvdfs-core/src/write/fs/mod.rs:155-168`, as implemented at
`/repo/xdvdfs-core/src/write/fs/stdfs.rs:134-160`. -/
abbrev BufCopier := Path → (dest : Bytes) → (inOff outOff size : Nat) → Res (Nat × Bytes)

/-- `CisoSectorInput::read_sector`, `/repo/xdvdfs-core/src/write/fs/sector_linear.rs:189-214`;
`copy_from_slice` panics when the sector sizes differ. -/
def readSector (copy : BufCopier) (m : SecMap) (sector size : Nat) : Res Bytes :=
  match m.get sector with
  | none => .ok (List.replicate size 0)
  | some (.raw data) => if data.length = size then .ok data else .panic
  | some (.file path idx) => do
    let (n, buf) ← copy path (List.replicate size 0) (size * idx) 0 size
    if n = size then .ok buf else .panic

/-- `FilesystemCopier<[u8]> for StdFilesystem`, `/repo/xdvdfs-core/src/write/fs/stdfs.rs:134-160`
(the same code for `Box<[u8]>`, lines 104-130).  `read path off n` is the outcome of opening the
file, seeking to `off` and one `Read::read` into a buffer of `n` bytes: it may deliver fewer.  The
subtraction and the slice indices panic when out of range. -/
def stdBufCopy (read : Path → (off n : Nat) → Res Bytes) : BufCopier := fun path dest inOff outOff size =>
  if outOff > dest.length then .panic
  else
    let size := min size (dest.length - outOff)
    do
      let got ← read path inOff size
      if outOff + got.length > size then .panic
      else
        -- `dest[output_offset..]` after the read, with `[(output_offset + bytes_read)..]` zeroed
        let window := got ++ slice dest (outOff + got.length) (size - got.length)
        let window := window.take (outOff + got.length) ++
          List.replicate (size - (outOff + got.length)) 0
        .ok (size, dest.take outOff ++ (window ++ dest.drop (outOff + size)))

end Xdvdfs
