import Verif.Model.BlockDev
import Verif.Model.Util

/-!
# Reading images: `/repo/xdvdfs-core/src/read.rs`, and the data accessors of `layout.rs`
-/

namespace Xdvdfs

/-- `read_volume`, `/repo/xdvdfs-core/src/read.rs:94-109`: any device error becomes
`InvalidVolume`. -/
def readVolume (dev : Dev) : Res VolDesc :=
  match dev.read (sectorSize * 32) 2048 with
  | .ok buf =>
    let v := VolDesc.deser buf
    if v.isValid then .ok v else .err .invalidVolume
  | .err _ => .err .invalidVolume
  | .panic => .panic
  | .hang => .hang

/-- The loop of `OffsetWrapper::new`, `/repo/xdvdfs-core/src/blockdev.rs:159-168`. -/
def offsetNewLoop (dev : Dev) : List Nat → Res Nat
  | [] => .err .invalidVolume
  | o :: os =>
    match readVolume (offsetDev dev o) with
    | .ok _ => .ok o
    | .err _ => offsetNewLoop dev os
    | .panic => .panic
    | .hang => .hang

/-- `OffsetWrapper::new`, `/repo/xdvdfs-core/src/blockdev.rs:151-169`; returns the chosen offset
(the wrapper is `offsetDev dev offset`). -/
def offsetNew (dev : Dev) : Res Nat := offsetNewLoop dev xdvdOffsets

/-- `deserialize_dirent_node`, `/repo/xdvdfs-core/src/read.rs:114-130`: a header of all `0xff` or
all `0x00` is an empty entry. -/
def deserDirentNode (buf : Bytes) : Option DiskNode :=
  if buf = List.replicate 0xe 0xff ∨ buf = List.replicate 0xe 0x00 then none
  else DiskNode.deser buf

/-- `read_dirent`, `/repo/xdvdfs-core/src/read.rs:133-154`. -/
def readDirent (dev : Dev) (offset : Nat) : Res (Option DirEnt) := do
  let buf ← dev.read offset 0xe
  match deserDirentNode buf with
  | none => pure none
  | some node =>
    let name ← dev.read (offset + 0xe) node.dirent.nameLen.toNat
    pure (some { node, name, offset })

/-- `VolumeDescriptor::root_dirent`, `/repo/xdvdfs-core/src/read.rs:158-167`. -/
def rootDirent (v : VolDesc) (dev : Dev) : Res (Option DirEnt) :=
  if v.root.isEmpty then .err .directoryEmpty
  else do
    let off ← v.root.offset 0
    readDirent dev off

/-- The loop of `find_dirent`, `/repo/xdvdfs-core/src/read.rs:184-205`. -/
def findLoop (dev : Dev) (tab : Region) (name : Str) : Nat → Nat → Res DirEnt
  | 0, _ => .hang
  | fuel + 1, offset => do
    let dirent? ← readDirent dev offset
    let dirent ← Res.ofOption .doesNotExist dirent?
    let next ← (match cmpIgnoreCase name dirent.nameStr with
      | .eq => (pure none : Res (Option UInt16))
      | .lt => pure (some dirent.node.left)
      | .gt => pure (some dirent.node.right))
    match next with
    | none => pure dirent
    | some next =>
      if next = 0 then .err .doesNotExist
      else do
        let off ← tab.offset (4 * next.toNat)
        findLoop dev tab name fuel off

/-- `find_dirent`, `/repo/xdvdfs-core/src/read.rs:172-206`. -/
def findDirent (dev : Dev) (tab : Region) (name : Str) (fuel : Nat) : Res DirEnt :=
  if tab.isEmpty then .err .directoryEmpty
  else do
    let off ← tab.offset 0
    findLoop dev tab name fuel off

/-- `str::trim_start_matches('/')`, used at `/repo/xdvdfs-core/src/read.rs:226`. -/
def trimSlashes : Str → Str
  | '/' :: cs => trimSlashes cs
  | cs => cs

/-- `str::split('/')`: always at least one (possibly empty) segment. Used for `split_terminator` at
`/repo/xdvdfs-core/src/read.rs:227`. -/
def splitSlash : Str → List Str
  | [] => [[]]
  | c :: cs =>
    if c = '/' then [] :: splitSlash cs
    else match splitSlash cs with
      | seg :: segs => (c :: seg) :: segs
      | [] => [[c]]  -- unreachable: `splitSlash` is never empty

/-- `str::split_terminator('/')`, used at `/repo/xdvdfs-core/src/read.rs:227`: like `split`, but a
final empty segment is dropped. -/
def splitTerminator (s : Str) : List Str :=
  let segs := splitSlash s
  if segs.getLast? = some [] then segs.dropLast else segs

/-- The loop of `walk_path`, `/repo/xdvdfs-core/src/read.rs:230-245`.  Running out of segments is
the `unreachable!` of line 245. -/
def walkSegments (dev : Dev) (fuel : Nat) : Region → List Str → Res DirEnt
  | _, [] => .panic
  | tab, seg :: segs => do
    let dirent ← findDirent dev tab seg fuel
    if segs = [] then pure dirent
    else do
      let tab' ← Res.ofOption .isNotDirectory dirent.node.dirent.direntTable
      walkSegments dev fuel tab' segs

/-- `walk_path`, `/repo/xdvdfs-core/src/read.rs:214-246`.  `fuel` bounds each directory search. -/
def walkPath (dev : Dev) (tab : Region) (path : Str) (fuel : Nat) : Res DirEnt :=
  if path = [] ∨ path = ['/'] then .err .noDirent
  else walkSegments dev fuel tab (splitTerminator (trimSlashes path))

/-- The children pushed for one entry in `walk_dirent_tree`,
`/repo/xdvdfs-core/src/read.rs:307-315` (the head of the list is the top of the stack: the right
child is pushed last). -/
def pushChildren (n : DiskNode) (stack : List Nat) : List Nat :=
  let s := if n.left ≠ 0 ∧ n.left ≠ 0xffff then 4 * n.left.toNat :: stack else stack
  if n.right ≠ 0 ∧ n.right ≠ 0xffff then 4 * n.right.toNat :: s else s

/-- The loop of `walk_dirent_tree`, `/repo/xdvdfs-core/src/read.rs:299-321`.  `acc` is the output
vector in reverse. -/
def walkLoop (dev : Dev) (tab : Region) : Nat → List Nat → List DirEnt → Res (List DirEnt)
  | _, [], acc => .ok acc.reverse
  | 0, _ :: _, _ => .hang
  | fuel + 1, top :: stack, acc => do
    let off ← tab.offset top
    let dirent? ← readDirent dev off
    match dirent? with
    | none => walkLoop dev tab fuel stack acc
    | some d => walkLoop dev tab fuel (pushChildren d.node stack) (d :: acc)

/-- `walk_dirent_tree`, `/repo/xdvdfs-core/src/read.rs:285-322`. -/
def walkDirentTree (dev : Dev) (tab : Region) (fuel : Nat) : Res (List DirEnt) :=
  if tab.isEmpty then .ok [] else walkLoop dev tab fuel [0] []

/-- Subdirectories pushed while listing one directory in `file_tree`,
`/repo/xdvdfs-core/src/read.rs:342-349`, in the order they are pushed. -/
def subdirsOf (parent : Str) (children : List DirEnt) : List (Str × Region) :=
  children.filterMap fun c =>
    c.node.dirent.direntTable.map fun t => (parent ++ ['/'] ++ c.nameStr, t)

/-- The loop of `file_tree`, `/repo/xdvdfs-core/src/read.rs:339-352`; the head of `stack` is its
top; `acc` is the output in reverse.  `wfuel` bounds each directory walk. -/
def fileTreeLoop (dev : Dev) (wfuel : Nat) :
    Nat → List (Str × Region) → List (Str × DirEnt) → Res (List (Str × DirEnt))
  | _, [], acc => .ok acc.reverse
  | 0, _ :: _, _ => .hang
  | fuel + 1, (parent, tab) :: stack, acc => do
    let children ← walkDirentTree dev tab wfuel
    fileTreeLoop dev wfuel fuel ((subdirsOf parent children).reverse ++ stack)
      ((children.map fun c => (parent, c)).reverse ++ acc)

/-- `file_tree`, `/repo/xdvdfs-core/src/read.rs:325-353`. -/
def fileTree (dev : Dev) (tab : Region) (fuel : Nat) : Res (List (Str × DirEnt)) :=
  fileTreeLoop dev fuel fuel [([], tab)] []

/-! ## Sequential scan -/

/-- `DirentScanIter`, `/repo/xdvdfs-core/src/read.rs:8-14`. -/
structure Scan where
  sector : Nat
  buf : Bytes
  offset : Nat
  endSector : Nat
  deriving DecidableEq, Repr

/-- `DirentScanIter::next_sector`, `/repo/xdvdfs-core/src/read.rs:18-35`. -/
def Scan.nextSector (dev : Dev) (s : Scan) : Res Scan :=
  let s := { s with offset := 0, sector := s.sector + 1 }
  if s.sector ≥ s.endSector then .ok s
  else do
    let buf ← dev.read (s.sector * sectorSize) 2048
    pure { s with buf := buf }

/-- One iteration of the loop in `DirentScanIter::next_entry`,
`/repo/xdvdfs-core/src/read.rs:45-78`. `inl s` means `continue` with state `s`, `inr` a break. -/
def Scan.step (dev : Dev) (s : Scan) : Res (Scan ⊕ (Option DirEnt × Scan)) := do
  Res.assert (s.offset + 0xe < 2048)
  let nameOffset := s.offset + 0xe
  match deserDirentNode (slice s.buf s.offset 0xe) with
  | none =>
    if s.sector + 1 < s.endSector then do
      let s ← s.nextSector dev
      pure (.inl s)
    else pure (.inr (none, s))
  | some node =>
    let nameLen := node.dirent.nameLen.toNat
    Res.assert (nameOffset + nameLen ≤ 2048)
    let d : DirEnt := { node, name := slice s.buf nameOffset nameLen, offset := s.offset }
    let o := nameOffset + nameLen
    let o := o + (4 - o % 4) % 4
    let s := { s with offset := o }
    if o + 0xe ≥ 2048 then do
      let s ← s.nextSector dev
      pure (.inr (some d, s))
    else pure (.inr (some d, s))

/-- The loop of `next_entry`, `/repo/xdvdfs-core/src/read.rs:45-78`. -/
def Scan.nextLoop (dev : Dev) : Nat → Scan → Res (Option DirEnt × Scan)
  | 0, _ => .hang
  | fuel + 1, s => do
    let r ← s.step dev
    match r with
    | .inl s => Scan.nextLoop dev fuel s
    | .inr r => pure r

/-- `DirentScanIter::next_entry`, `/repo/xdvdfs-core/src/read.rs:38-79`. -/
def Scan.next (dev : Dev) (fuel : Nat) (s : Scan) : Res (Option DirEnt × Scan) :=
  if s.sector ≥ s.endSector then .ok (none, s) else Scan.nextLoop dev fuel s

/-- `scan_dirent_tree`, `/repo/xdvdfs-core/src/read.rs:252-281`. -/
def scanInit (dev : Dev) (tab : Region) : Res Scan :=
  if tab.isEmpty then
    .ok { sector := 0, buf := List.replicate 2048 0xff, offset := 0, endSector := 0 }
  else do
    let off ← tab.offset 0
    let buf ← dev.read off 2048
    let sector := tab.sector.toNat
    pure { sector, buf, offset := 0, endSector := sector + (tab.size.toNat + 2047) / 2048 }

/-- Draining the iterator, as every caller does with `while let Some(..) = iter.next_entry()?`
(`/repo/xdvdfs-core/src/write/fs/xdvdfs.rs:267`, `/repo/xdvdfs-fsd/src/img_fs.rs:372-384`). -/
def scanDrain (dev : Dev) : Nat → Scan → List DirEnt → Res (List DirEnt)
  | 0, _, _ => .hang
  | fuel + 1, s, acc => do
    let r ← s.next dev (fuel + 1)
    match r with
    | (none, _) => pure acc.reverse
    | (some d, s) => scanDrain dev fuel s (d :: acc)

/-- All entries produced by `scan_dirent_tree` on a table. `/repo/xdvdfs-core/src/read.rs:252-281`,
`/repo/xdvdfs-core/src/read.rs:37-79`, called until there is no entry. -/
def scanAll (dev : Dev) (tab : Region) (fuel : Nat) : Res (List DirEnt) := do
  let s ← scanInit dev tab
  scanDrain dev fuel s []

/-! ## File data -/

/-- `read_data_all`, `/repo/xdvdfs-core/src/layout.rs:249-266`. -/
def readDataAll (dev : Dev) (d : DiskData) : Res Bytes :=
  if d.data.size = 0 then .ok []
  else do
    let off ← d.data.offset 0
    dev.read off d.data.size.toNat

/-- `read_data_offset`, `/repo/xdvdfs-core/src/layout.rs:270-290`. -/
def readDataOffset (dev : Dev) (d : DiskData) (size offset : Nat) : Res Bytes :=
  let size := min size d.data.size.toNat
  if d.data.size = 0 then .ok (List.replicate size 0)
  else do
    let off ← d.data.offset offset
    dev.read off size

end Xdvdfs
