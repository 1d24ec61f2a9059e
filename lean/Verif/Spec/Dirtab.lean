import Verif.Model.Dirtab
import Verif.Spec.Sector
import Verif.Spec.Reader
import Verif.Spec.Names

/-!
# Specification vocabulary for directory tables
-/

namespace Xdvdfs

/-- The device holds the bytes `b` at offset `base`: reading any part returns it. -/
def HoldsAt (dev : Dev) (base : Nat) (b : Bytes) : Prop :=
  ∀ o n, o + n ≤ b.length → dev.read (base + o) n = .ok (slice b o n)

end Xdvdfs

namespace Xdvdfs.Spec

/-- One entry handed to the table writer: a name, a kind and a size. -/
structure Item where
  name : Str
  isDir : Bool
  size : UInt32
  deriving DecidableEq, Repr

/-- `n` rounded up to a multiple of 2048. -/
def roundUp (n : Nat) : Nat := (n + 2047) / 2048 * 2048

/-- The size recorded for an entry: the size of a file, the size of a directory's table rounded up
to whole sectors. -/
def Item.storedSize (it : Item) : Nat := if it.isDir then roundUp it.size.toNat else it.size.toNat

/-- The attribute byte recorded for an entry: bit 4 marks directories, bit 5 plain files. -/
def Item.attrs (it : Item) : UInt8 := if it.isDir then 16 else 32

/-- Hand one entry to the writer. -/
def addItem (w : TabWriter) (it : Item) : Res TabWriter :=
  if it.isDir then w.addDir it.name it.size.toNat else w.addFile it.name it.size

/-- Hand entries to the writer in order. -/
def addItems : TabWriter → List Item → Res TabWriter
  | w, [] => .ok w
  | w, it :: its => do
    let w ← addItem w it
    addItems w its

/-- Build a table: add every entry to a new writer, then compute the size. -/
def buildTable (items : List Item) : Res TabWriter := do
  let w ← addItems TabWriter.new items
  w.computeSize

/-- Pairwise different ignoring ASCII case. -/
def DistinctNames (names : List Str) : Prop := names.Pairwise (fun a b => ¬ SameName a b)

/-- Table `r`, serialized by writer `w`, is stored on the device at the sector of the region `tab`,
and the region's size is the announced size of the table, possibly rounded up to whole sectors. -/
def Placed (dev : Dev) (tab : Region) (w : TabWriter) (r : DiskRepr) : Prop :=
  HoldsAt dev (2048 * tab.sector.toNat) r.entryTable ∧
  ∃ sz, w.dirtabSize = .ok sz ∧ sz ≤ tab.size.toNat ∧ tab.size.toNat ≤ roundUp sz

/-- Name, data sector, data size and kind of an entry read from an image. -/
def summary (d : DirEnt) : Listing :=
  { name := d.nameStr, sector := d.node.dirent.data.sector.toNat,
    size := d.node.dirent.data.size.toNat, isDir := d.node.dirent.isDirectory }

/-- Bytes taken by an entry: a 14-byte header and the name, padded to a multiple of four. -/
def entryLen (d : DirEnt) : Nat := (14 + d.name.length + 3) / 4 * 4

/-- Two entries occupy disjoint bytes. -/
def Apart (c d : DirEnt) : Prop := c.offset + entryLen c ≤ d.offset ∨ d.offset + entryLen d ≤ c.offset

/-- Consecutive data areas: the first starts at sector `s`, each next one right after the sectors
needed by the previous one, and the last one ends before sector `e`. -/
def Consecutive : Nat → List Listing → Nat → Prop
  | s, [], e => s = e
  | s, l :: ls, e => l.sector = s ∧ Consecutive (s + sectorsFor l.size) ls e

end Xdvdfs.Spec
