import Verif.Spec.Layout

/-!
# Specification vocabulary for the length of an image

How many sectors the directories and files of a source tree need.
-/

namespace Xdvdfs.Spec

/-- The bytes that the entries of a listing take in a table: 14 bytes and the name each, rounded up to
a multiple of four. -/
def tableBytes (l : List FileEntry) : Nat := (l.map (fun e => (14 + e.name.length + 3) / 4 * 4)).sum

/-- Sectors that are enough for the table of a listing, whatever the order of its entries: one if all of
them fit into one; otherwise a sector holds at least 1780 bytes of entries, because no entry is longer
than 272 bytes and none is split between two sectors. -/
def tableAtMost (l : List FileEntry) : Nat := if tableBytes l ≤ 2048 then 1 else tableBytes l / 1780 + 1

/-- The lengths of the contents of the files in a directory. -/
def fileLengths (content : Path → Bytes) (x : Path × List FileEntry) : List Nat :=
  (x.2.filter (fun e => !e.isDir)).map (fun e => (content (x.1 ++ [e.name])).length)

/-- Sectors without which the tree cannot be stored: 33 up to and including the descriptor, and whole
sectors for every table and every content; nothing for empty files. -/
def leastSectors (content : Path → Bytes) (tree : List (Path × List FileEntry)) : Nat :=
  33 + (tree.map (fun x => sectorsFor (tableBytes x.2) +
    ((fileLengths content x).map (fun n => (n + 2047) / 2048)).sum)).sum

/-- Sectors that are enough for the tree: a sector for every empty file and, for tables that do not fit
into one sector, room for the gaps at the ends of sectors. -/
def mostSectors (content : Path → Bytes) (tree : List (Path × List FileEntry)) : Nat :=
  33 + (tree.map (fun x => tableAtMost x.2 + ((fileLengths content x).map sectorsFor).sum)).sum

/-- The length in bytes of `n` sectors, rounded up to units of 64 KiB, that is, of 32 sectors. -/
def wholeUnits (n : Nat) : Nat := (n + 31) / 32 * 65536

end Xdvdfs.Spec
