import Verif.Model.Show

/-!
# The text that the reading commands print
-/

namespace Xdvdfs

/-- Lines printed with `println!`, as `/repo/xdvdfs-cli/src/cmd_read.rs:47-57, 80-94` and
`/repo/xdvdfs-cli/src/cmd_info.rs:29-34, 39-67, 79-81` do. -/
def printedText (lines : List Str) : Str := lines.flatMap (fun s => s ++ ['\n'])

/-- The words of `Display for DirentAttributes`, `/repo/xdvdfs-core/src/layout.rs:180-207`, with the bits of
`/repo/xdvdfs-core/src/layout.rs:50-63`. -/
def attrWords (a : UInt8) : List Str :=
  (if a &&& 0x10 ≠ 0 then ["Directory".toList] else []) ++
  (if a &&& 0x01 ≠ 0 then ["Read-Only".toList] else []) ++
  (if a &&& 0x02 ≠ 0 then ["Hidden".toList] else []) ++
  (if a &&& 0x04 ≠ 0 then ["System".toList] else []) ++
  (if a &&& 0x20 ≠ 0 then ["Archive".toList] else []) ++
  (if a &&& 0x80 ≠ 0 then ["Normal".toList] else [])

/-- `join(" ")`, `/repo/xdvdfs-core/src/layout.rs:208`. -/
def joinSpaces : List Str → Str
  | [] => []
  | [w] => w
  | w :: ws => w ++ ' ' :: joinSpaces ws

/-- `Display for DirentAttributes`, `/repo/xdvdfs-core/src/layout.rs:180-211`. -/
def attrsText (a : UInt8) : Str := joinSpaces (attrWords a)

/-- The format `{0: <20} {1}`, `/repo/xdvdfs-cli/src/cmd_info.rs:29`: the label is filled up to 20 characters. -/
def infoField (label value : Str) : Str := label ++ List.replicate (20 - label.length) ' ' ++ ' ' :: value

/-- The offset of a child as it is printed, `/repo/xdvdfs-cli/src/cmd_info.rs:44-48, 53-57`. -/
def linkText : Option Nat → Str
  | some n => Nat.toDigits 10 n ++ " bytes".toList
  | none => "None".toList

/-- A location as it is printed, `/repo/xdvdfs-cli/src/cmd_info.rs:31-34, 62-65`. -/
def placeText (sector size : Nat) : Str :=
  "Sector ".toList ++ Nat.toDigits 10 sector ++ " (".toList ++ Nat.toDigits 10 size ++ " bytes)".toList

/-- The lines of `print_dirent`, `/repo/xdvdfs-cli/src/cmd_info.rs:37-69`. -/
def direntLines (i : DirentInfo) : List Str :=
  [infoField "Name:".toList i.name,
   infoField "Offset:".toList (Nat.toDigits 10 i.offset),
   infoField "Left Child Offset:".toList (linkText i.left),
   infoField "Right Child Offset:".toList (linkText i.right),
   infoField "Data Location:".toList (placeText i.sector i.size),
   infoField "Attributes:".toList (attrsText i.attrs)]

/-- The lines of an entry in `print_subdir`, `/repo/xdvdfs-cli/src/cmd_info.rs:78-81`. -/
def subdirLines (i : DirentInfo) : List Str := i.name :: direntLines i ++ [[]]

/-- The lines of `print_volume`, `/repo/xdvdfs-cli/src/cmd_info.rs:24-35`. -/
def volumeLines (valid : Bool) (filetime : UInt64) (sector size : Nat) : List Str :=
  [infoField "Valid:".toList (if valid then "true".toList else "false".toList),
   infoField "Creation time:".toList (Nat.toDigits 10 filetime.toNat),
   infoField "Root Entry:".toList (placeText sector size)]

/-- The lines that `cmd_info` prints, `/repo/xdvdfs-cli/src/cmd_info.rs:88-111`: with `/` the entries of the root, with
another path an entry and, if it is a directory, an empty line and the entries in it. -/
def infoLines (path : Option Str) : InfoOut → List Str
  | .volume valid filetime sector size => volumeLines valid filetime sector size
  | .entries l =>
    if path = some ['/'] then l.flatMap subdirLines
    else match l with
      | [] => []
      | i :: rest => direntLines i ++ (if i.attrs &&& 0x10 ≠ 0 then [] :: rest.flatMap subdirLines else [])

end Xdvdfs
