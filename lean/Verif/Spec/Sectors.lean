import Verif.Spec.Reader

/-!
# What a sequential scan of a table finds, sector by sector
-/

namespace Xdvdfs.Spec

open Xdvdfs

/-- The entries that are stored in the sector `b` from the offset `o` on, one after the other, each at the next multiple of
four: up to the mark of an empty place, or to the end of the sector, where no further entry begins.  The last argument is
`false` if the sequence ends with an entry whose name would run past the end of the sector. -/
inductive SectorEntries (b : Bytes) : Nat → List DirEnt → Bool → Prop
  | gap {o : Nat} : deserDirentNode (slice b o 14) = none → SectorEntries b o [] true
  | crossing {o : Nat} {node : DiskNode} : deserDirentNode (slice b o 14) = some node →
      2048 < o + 14 + node.dirent.nameLen.toNat → SectorEntries b o [] false
  | last {o : Nat} {node : DiskNode} : deserDirentNode (slice b o 14) = some node →
      o + 14 + node.dirent.nameLen.toNat ≤ 2048 → 2048 ≤ (o + 14 + node.dirent.nameLen.toNat + 3) / 4 * 4 + 14 →
      SectorEntries b o [⟨node, slice b (o + 14) node.dirent.nameLen.toNat, o⟩] true
  | more {o : Nat} {node : DiskNode} {l : List DirEnt} {w : Bool} : deserDirentNode (slice b o 14) = some node →
      (o + 14 + node.dirent.nameLen.toNat + 3) / 4 * 4 + 14 < 2048 →
      SectorEntries b ((o + 14 + node.dirent.nameLen.toNat + 3) / 4 * 4) l w →
      SectorEntries b o (⟨node, slice b (o + 14) node.dirent.nameLen.toNat, o⟩ :: l) w

/-- Sector `x` can be read, and holds the entries `l`, none of which crosses its end. -/
def GoodSector (dev : Dev) (x : Nat) (l : List DirEnt) : Prop :=
  ∃ b, dev.read (x * 2048) 2048 = .ok b ∧ SectorEntries b 0 l true

/-- Sector `x` can be read, and the sequence of its entries comes to one that crosses its end. -/
def BadSector (dev : Dev) (x : Nat) : Prop :=
  ∃ b l, dev.read (x * 2048) 2048 = .ok b ∧ SectorEntries b 0 l false

/-- The number of sectors of a table. -/
def tableSectors (tab : Region) : Nat := (tab.size.toNat + 2047) / 2048

end Xdvdfs.Spec
