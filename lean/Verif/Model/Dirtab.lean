import Verif.Model.Avl
import Verif.Model.Sector
import Verif.Model.Util

/-!
# Directory table serialization: `/repo/xdvdfs-core/src/write/dirtab.rs`

`u64` byte positions are `Nat`s (they stay below `2^50`); `u32`/`u16` additions and conversions
carry explicit checks.
-/

namespace Xdvdfs

/-- `DirectoryEntryData`, `/repo/xdvdfs-core/src/layout.rs:100-113`. -/
structure DirData where
  node : DiskData
  name : Str
  deriving DecidableEq, Repr

/-- `impl Ord for DirectoryEntryData`, `/repo/xdvdfs-core/src/layout.rs:370-374`. -/
def cmpDirData (a b : DirData) : Ordering := cmpIgnoreCase a.name b.name

/-- Length in bytes of a Rust string (`str::len`): the sum of the UTF-8 lengths of its characters. Called at
`/repo/xdvdfs-core/src/write/dirtab.rs:52-53`. -/
def utf8Len (s : Str) : Nat := (s.map Char.utf8Size).sum

/-- `DirectoryEntryTableWriter`, `/repo/xdvdfs-core/src/write/dirtab.rs:14-19`. -/
structure TabWriter where
  table : Avl DirData
  size : Option Nat

/-- `DirectoryEntryTableWriter::default`. `/repo/xdvdfs-core/src/write/dirtab.rs:14-19`. -/
def TabWriter.new : TabWriter := { table := Avl.empty, size := none }

/-- `FileListingEntry`, `/repo/xdvdfs-core/src/write/dirtab.rs:21-26`. -/
structure Listing where
  name : Str
  sector : Nat
  size : Nat
  isDir : Bool
  deriving DecidableEq, Repr

/-- `DirectoryEntryTableDiskRepr`, `/repo/xdvdfs-core/src/write/dirtab.rs:28-31`. -/
structure DiskRepr where
  entryTable : Bytes
  fileListing : List Listing
  deriving DecidableEq, Repr

/-- `sector_align`, `/repo/xdvdfs-core/src/write/dirtab.rs:33-41`. -/
def sectorAlign (offset incr : Nat) : Res Nat := do
  let used ← requiredSectors offset
  let needed ← requiredSectors (offset + incr)
  if offset % sectorSize > 0 ∧ needed > used then pure (sectorSize - offset % sectorSize)
  else pure 0

namespace TabWriter

/-- `add_node`, `/repo/xdvdfs-core/src/write/dirtab.rs:44-71`.  `ArrayString::from` fails above 256
bytes and the conversion of the length to `u8` fails above 255. -/
def addNode (w : TabWriter) (name : Str) (size : UInt32) (attrs : UInt8) : Res TabWriter :=
  if utf8Len name > 256 then .err .fileNameTooLong
  else if utf8Len name > 255 then .err .fileNameTooLong
  else do
    let dirent : DirData :=
      { node := { data := { sector := 0, size := size }, attrs := attrs,
                  nameLen := UInt8.ofNat (utf8Len name) }
        name := name }
    let r ← w.table.insert cmpDirData dirent
    if r.1 then pure { table := r.2, size := none } else .err .duplicateFileName

/-- `add_dir`, `/repo/xdvdfs-core/src/write/dirtab.rs:73-78`; the attribute byte is
`DirentAttributes(0).with_directory(true)` (`layout.rs:59`). -/
def addDir (w : TabWriter) (name : Str) (size : Nat) : Res TabWriter :=
  let size := size + (2048 - size % 2048) % 2048
  if size < 2 ^ 32 then w.addNode name (UInt32.ofNat size) 0x10 else .panic

/-- `add_file`, `/repo/xdvdfs-core/src/write/dirtab.rs:80-83`; the attribute byte is
`DirentAttributes(0).with_archive(true)` (`layout.rs:60`). -/
def addFile (w : TabWriter) (name : Str) (size : UInt32) : Res TabWriter :=
  w.addNode name size 0x20

/-- The fold of `compute_size`, `/repo/xdvdfs-core/src/write/dirtab.rs:86-94`, over the backing
indices in pre-order; additions in `u32`. -/
def sizeLoop (A : Avl DirData) : List Nat → Nat → Res Nat
  | [], acc => .ok acc
  | i :: is, acc => do
    let node ← A.get i
    let len ← lenOnDisk node.data.name
    let adj ← sectorAlign acc len
    if acc + len + adj < 2 ^ 32 then sizeLoop A is (acc + len + adj) else .panic

/-- `compute_size`, `/repo/xdvdfs-core/src/write/dirtab.rs:85-97`. -/
def computeSize (w : TabWriter) : Res TabWriter := do
  let order ← w.table.preorder
  let size ← sizeLoop w.table order 0
  pure { w with size := some size }

/-- `dirtab_size`, `/repo/xdvdfs-core/src/write/dirtab.rs:100-109`. -/
def dirtabSize (w : TabWriter) : Res Nat :=
  if w.table.tree = [] then .ok 2048 else Res.unwrap w.size

/-- `map(len_on_disk).collect::<Result<Vec<_>, _>>()`,
`/repo/xdvdfs-core/src/write/dirtab.rs:135-141`. -/
def lensOnDisk : List (AvlNode DirData) → Res (List Nat)
  | [] => .ok []
  | n :: ns => do
    let l ← lenOnDisk n.data.name
    let ls ← lensOnDisk ns
    pure (l :: ls)

/-- `offsets.rotate_right(1)`, `/repo/xdvdfs-core/src/write/dirtab.rs:149`. -/
def rotateRight1 (v : List Nat) : List Nat :=
  match v.getLast? with
  | some x => x :: v.dropLast
  | none => []

/-- The loop `for i in 1..offsets.len()`, `/repo/xdvdfs-core/src/write/dirtab.rs:152-164`; `k` is
the number of remaining iterations. -/
def offsetsLoop (final : Nat) : Nat → Nat → List Nat → Res (List Nat)
  | 0, _, offsets => .ok offsets
  | k + 1, i, offsets => do
    let prev ← Avl.vget offsets (i - 1)
    let cur ← Avl.vget offsets i
    let offsets ← Avl.vset offsets i (cur + prev)
    let nextSize ← (if i + 1 = offsets.length then (pure final : Res Nat)
      else Avl.vget offsets (i + 1))
    let adj ← sectorAlign (cur + prev) nextSize
    let offsets ← Avl.vset offsets i (cur + prev + adj)
    Res.assert ((cur + prev + adj) % 4 == 0)
    offsetsLoop final k (i + 1) offsets

/-- Computation of the entry offsets, `/repo/xdvdfs-core/src/write/dirtab.rs:135-164` (for at least
one entry). -/
def entryOffsets (lens : List Nat) : Res (List Nat) := do
  let v := rotateRight1 lens
  let final ← Avl.vget v 0
  let v ← Avl.vset v 0 0
  offsetsLoop final (v.length - 1) 1 v

/-- Conversion of a child index to a link,
`/repo/xdvdfs-core/src/write/dirtab.rs:174-185`. -/
def linkOf (offsets : List Nat) : Option Nat → Res UInt16
  | none => .ok 0
  | some idx => do
    let o ← Avl.vget offsets idx
    if o / 4 < 2 ^ 16 then pure (UInt16.ofNat (o / 4)) else .err .tooManyEntries

/-- The gap filled with `0xff` before an entry, `/repo/xdvdfs-core/src/write/dirtab.rs:208-212`. -/
def fillGap (bytes : Bytes) (offset : Nat) : Bytes :=
  if bytes.length < offset then bytes ++ List.replicate (offset - bytes.length) 0xff else bytes

/-- Header, name and padding of one entry, `/repo/xdvdfs-core/src/write/dirtab.rs:204-207,217-224`.
-/
def entryBytes (node : DiskNode) (name : Bytes) : Bytes :=
  let size := 0xe + name.length
  node.ser ++ name ++ (if size % 4 > 0 then List.replicate (4 - size % 4) 0xff else [])

/-- The serialization loop, `/repo/xdvdfs-core/src/write/dirtab.rs:169-223`; returns the bytes, the
file listing and the allocator state.  `serialize` of a header cannot fail
(`DiskNode.ser`) and always gives 14 bytes, so the assertion of line 208 holds. -/
def reprLoop (offsets : List Nat) : List (AvlNode DirData) → Nat → Nat → Bytes → List Listing →
    Res (Bytes × List Listing × Nat)
  | [], _, next, bytes, listing => .ok (bytes, listing, next)
  | node :: nodes, idx, next, bytes, listing => do
    let name ← encodeName node.data.name
    let left ← linkOf offsets node.left
    let right ← linkOf offsets node.right
    let (sector, next) ← allocate next node.data.node.data.size.toNat
    let diskNode : DiskNode :=
      { left, right
        dirent := { data := { sector := UInt32.ofNat sector, size := node.data.node.data.size }
                    attrs := node.data.node.attrs
                    nameLen := UInt8.ofNat name.length } }
    let entry : Listing :=
      { name := node.data.name, sector, size := node.data.node.data.size.toNat
        isDir := diskNode.dirent.isDirectory }
    let offset ← Avl.vget offsets idx
    let bytes := fillGap bytes offset
    Res.assert (bytes.length == offset)
    reprLoop offsets nodes (idx + 1) next (bytes ++ entryBytes diskNode name) (listing ++ [entry])

/-- The final size check, `/repo/xdvdfs-core/src/write/dirtab.rs:225-230`. -/
def checkSize (w : TabWriter) (bytes : Bytes) : Res Unit :=
  match w.size with
  | some size => Res.assert (bytes.length % 2 ^ 32 == size)
  | none => do
    let w ← w.computeSize
    Res.assert (some (bytes.length % 2 ^ 32) == w.size)

/-- `disk_repr`, `/repo/xdvdfs-core/src/write/dirtab.rs:120-241`; `next` is the allocator state. -/
def diskRepr (w : TabWriter) (next : Nat) : Res (DiskRepr × Nat) :=
  if w.table.tree = [] then
    .ok ({ entryTable := List.replicate 2048 0xff, fileListing := [] }, next)
  else do
    let table ← w.table.reorder
    let w := { w with table := table }
    let lens ← lensOnDisk w.table.tree
    if lens = [] then pure ({ entryTable := [], fileListing := [] }, next)
    else do
      let offsets ← entryOffsets lens
      let (bytes, listing, next) ← reprLoop offsets w.table.tree 0 next [] []
      w.checkSize bytes
      Res.assert (decide (bytes.length > 0))
      let padding := (2048 - bytes.length % 2048) % 2048
      pure ({ entryTable := bytes ++ List.replicate padding 0xff, fileListing := listing }, next)

end TabWriter

end Xdvdfs
