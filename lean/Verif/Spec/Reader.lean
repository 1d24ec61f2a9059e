import Verif.Model.Read
import Verif.Spec.Format

/-!
# Specification vocabulary for reading images

These definitions talk about devices and about single directory entries as read from a device;
they do not mention the traversal loops.
-/

namespace Xdvdfs.Spec

/-- The partition offsets at which a volume is searched, in order: plain image, XGD1, XGD2, XGD3. -/
def partitionOffsets : List Nat := [0, 405798912, 265879552, 34078720]

/-- A volume descriptor can be read at sector 32 of a device shifted by `base`. -/
def VolumeAt (dev : Dev) (base : Nat) : Prop :=
  ∃ b, dev.read (base + 65536) 2048 = .ok b ∧ IsVolume b

/-- The entry stored at byte offset `o` of table `tab`. -/
def EntryAt (dev : Dev) (tab : Region) (o : Nat) (d : DirEnt) : Prop :=
  o < tab.size.toNat ∧ readDirent dev (2048 * tab.sector.toNat + o) = .ok (some d)

/-- A link value designates a child (`0` and `0xffff` mean none). -/
def IsLink (l : UInt16) : Prop := l ≠ 0 ∧ l ≠ 0xffff

/-- `c` is the table offset of a child of the entry stored at table offset `o`. -/
def ChildOf (dev : Dev) (tab : Region) (o c : Nat) : Prop :=
  ∃ d, EntryAt dev tab o d ∧
    ((IsLink d.node.left ∧ c = 4 * d.node.left.toNat) ∨
     (IsLink d.node.right ∧ c = 4 * d.node.right.toNat))

/-- Table offsets reachable from the root entry by following child links. -/
inductive Reachable (dev : Dev) (tab : Region) : Nat → Prop
  | root : Reachable dev tab 0
  | child {o c} : Reachable dev tab o → ChildOf dev tab o c → Reachable dev tab c

/-- The child links of a table contain no cycle: some ranking strictly decreases along links. -/
def Acyclic (dev : Dev) (tab : Region) : Prop :=
  ∃ rank : Nat → Nat, ∀ o c, Reachable dev tab o → ChildOf dev tab o c → rank c < rank o

/-- A path made of slashes only. -/
def OnlySlashes (path : Str) : Prop := ∀ c ∈ path, c = '/'

/-- A sector holds no entry whose name would run past the end of the sector. -/
def NamesInside (sector : Bytes) : Prop :=
  ∀ o node, o + 14 < 2048 → deserDirentNode (slice sector o 14) = some node →
    o + 14 + node.dirent.nameLen.toNat ≤ 2048

end Xdvdfs.Spec
