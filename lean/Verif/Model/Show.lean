import Verif.Model.Read

/-!
# The commands that print what is in an image: `info`, `ls`, `tree`

`/repo/xdvdfs-cli/src/cmd_info.rs`, `/repo/xdvdfs-cli/src/cmd_read.rs`.  What a command prints is a list of lines (or
records); lines printed before a failure are not modelled.
-/

namespace Xdvdfs

/-- `open_image`, `/repo/xdvdfs-cli/src/img.rs:33-77`: a file with extension `cso` (`compressed`) is read through the
decompressor, any other file through `OffsetWrapper`.  Simplification: `dev` is the content of the file, or the
decompressed image; the decompressor and the splitting of compressed files are not modelled. -/
def openImage (compressed : Bool) (dev : Dev) : Res Dev :=
  if compressed then .ok dev
  else do
    let base ← offsetNew dev
    pure (offsetDev dev base)

/-- `open_image` followed by `read_volume`, `/repo/xdvdfs-cli/src/cmd_info.rs:89-90`,
`/repo/xdvdfs-cli/src/cmd_read.rs:25-26, 71-72`. -/
def openVolume (compressed : Bool) (dev : Dev) : Res (Dev × VolDesc) := do
  let dev ← openImage compressed dev
  let vol ← readVolume dev
  pure (dev, vol)

/-- The child offset printed for a link, `/repo/xdvdfs-cli/src/cmd_info.rs:44-48, 53-57`: `None` for a zero link,
otherwise `4 * link` in 16-bit arithmetic, which panics on overflow if overflow checks are on (`checked`) and wraps
otherwise. -/
def infoLink (checked : Bool) (link : UInt16) : Res (Option Nat) :=
  if link = 0 then .ok none
  else if 4 * link.toNat < 65536 then .ok (some (4 * link.toNat))
  else if checked then .panic
  else .ok (some (4 * link).toNat)

/-- What `print_dirent` prints for an entry. Simplification: a record of the printed values in place of their
layout on the screen. `/repo/xdvdfs-cli/src/cmd_info.rs:37-69`. -/
structure DirentInfo where
  name : Str
  offset : Nat
  left : Option Nat
  right : Option Nat
  sector : Nat
  size : Nat
  attrs : UInt8
  deriving DecidableEq, Repr

/-- `print_dirent`, `/repo/xdvdfs-cli/src/cmd_info.rs:37-69`. -/
def printDirent (checked : Bool) (d : DirEnt) : Res DirentInfo := do
  let left ← infoLink checked d.node.left
  let right ← infoLink checked d.node.right
  pure { name := d.nameStr, offset := d.offset, left, right, sector := d.node.dirent.data.sector.toNat,
         size := d.node.dirent.data.size.toNat, attrs := d.node.dirent.attrs }

/-- The loop of `print_subdir`, `/repo/xdvdfs-cli/src/cmd_info.rs:77-82`. -/
def printDirents (checked : Bool) : List DirEnt → Res (List DirentInfo)
  | [] => .ok []
  | d :: ds => do
    let i ← printDirent checked d
    let is ← printDirents checked ds
    pure (i :: is)

/-- `print_subdir`, `/repo/xdvdfs-cli/src/cmd_info.rs:72-85`. -/
def printSubdir (checked : Bool) (dev : Dev) (tab : Region) (fuel : Nat) : Res (List DirentInfo) := do
  let children ← walkDirentTree dev tab fuel
  printDirents checked children

/-- What `info` prints: the volume, or entries. `/repo/xdvdfs-cli/src/cmd_info.rs:88-111`. -/
inductive InfoOut where
  | volume (valid : Bool) (filetime : UInt64) (sector size : Nat)
  | entries (l : List DirentInfo)
  deriving DecidableEq, Repr

/-- `cmd_info` with `print_volume`, `/repo/xdvdfs-cli/src/cmd_info.rs:24-35, 88-111`. -/
def cmdInfo (checked compressed : Bool) (dev : Dev) (path : Option Str) (fuel : Nat) : Res InfoOut := do
  let (dev, vol) ← openVolume compressed dev
  match path with
  | none => pure (.volume vol.isValid vol.filetime vol.root.sector.toNat vol.root.size.toNat)
  | some path =>
    if path = ['/'] then do
      let l ← printSubdir checked dev vol.root fuel
      pure (.entries l)
    else do
      let d ← walkPath dev vol.root path fuel
      let i ← printDirent checked d
      match d.node.dirent.direntTable with
      | some tab => do
        let l ← printSubdir checked dev tab fuel
        pure (.entries (i :: l))
      | none => pure (.entries [i])

/-- `cmd_ls`, `/repo/xdvdfs-cli/src/cmd_read.rs:23-60`: the printed names. -/
def cmdLs (compressed : Bool) (dev : Dev) (path : Str) (scan : Bool) (fuel : Nat) : Res (List Str) := do
  let (dev, vol) ← openVolume compressed dev
  let tab ← (if path = ['/'] then (pure vol.root : Res Region)
    else do
      let d ← walkPath dev vol.root path fuel
      Res.ofOption .other d.node.dirent.direntTable)
  let ds ← (if scan then scanAll dev tab fuel else walkDirentTree dev tab fuel)
  pure (ds.map DirEnt.nameStr)

/-- The line printed for an entry, `/repo/xdvdfs-cli/src/cmd_read.rs:80-88`. -/
def treeLine (x : Str × DirEnt) : Str :=
  if x.2.node.dirent.isDirectory then x.1 ++ ['/'] ++ x.2.nameStr ++ "/ (0 bytes)".toList
  else x.1 ++ ['/'] ++ x.2.nameStr ++ " (".toList ++ (Nat.repr x.2.node.dirent.data.size.toNat).toList ++ " bytes)".toList

/-- The sum and count of the loop of `cmd_tree`, `/repo/xdvdfs-cli/src/cmd_read.rs:76-89`, added up in 64 bits: the sum
panics on overflow if overflow checks are on and wraps otherwise. -/
def treeTotals (checked : Bool) : List (Str × DirEnt) → Nat × Nat → Res (Nat × Nat)
  | [], acc => .ok acc
  | x :: xs, (count, total) =>
    if x.2.node.dirent.isDirectory then treeTotals checked xs (count, total)
    else
      let total' := total + x.2.node.dirent.data.size.toNat
      if total' < 2 ^ 64 then treeTotals checked xs (count + 1, total')
      else if checked then .panic
      else treeTotals checked xs (count + 1, total' % 2 ^ 64)

/-- The last line of `cmd_tree`, `/repo/xdvdfs-cli/src/cmd_read.rs:91-94`. -/
def treeFooter (count total : Nat) (imagePath : Str) : Str :=
  (Nat.repr count).toList ++ " files, ".toList ++ (Nat.repr total).toList ++ " bytes in ".toList ++ imagePath

/-- `cmd_tree`, `/repo/xdvdfs-cli/src/cmd_read.rs:69-97`: the printed lines. -/
def cmdTree (checked compressed : Bool) (dev : Dev) (imagePath : Str) (fuel : Nat) : Res (List Str) := do
  let (dev, vol) ← openVolume compressed dev
  let tree ← fileTree dev vol.root fuel
  let (count, total) ← treeTotals checked tree (0, 0)
  pure (tree.map treeLine ++ [treeFooter count total imagePath])

end Xdvdfs
