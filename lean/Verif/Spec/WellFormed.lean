import Verif.Spec.Relist
import Verif.Spec.Dirtab

/-!
# Well-formed images

What a reader of the format may rely on.
-/

namespace Xdvdfs.Spec

/-- The entries of a table begin at multiples of four bytes, none crosses the border of a sector or the end of the table, and
no two of them overlap. -/
def Tidy (tab : Region) (l : List DirEnt) : Prop :=
  (∀ d ∈ l, ∃ o, d.offset = 2048 * tab.sector.toNat + o ∧ o % 4 = 0 ∧ o % 2048 + entryLen d ≤ 2048 ∧
    o + entryLen d ≤ tab.size.toNat) ∧ l.Pairwise Apart

/-- The region is inside the image. -/
def InsideImage (img : Bytes) (r : Region) : Prop := r.size = 0 ∨ 2048 * r.sector.toNat + r.size.toNat ≤ img.length

/-- A well-formed directory: its table is not empty and inside the image; its entries form a search tree in which missing
children are marked with 0; they are tidy; and those that are stored are those that the links lead to. -/
structure GoodDir (img : Bytes) (tab : Region) : Prop where
  notEmpty : tab.size ≠ 0
  inside : InsideImage img tab
  entries : ∃ l, Sorted (fileDev img) tab l ∧ ZeroLinks l ∧ Tidy tab l
  alike : ∃ n, ∀ fuel, n ≤ fuel → ReadsAlike (fileDev img) fuel tab

/-- A well-formed image: the volume descriptor is there, the whole tree can be listed, every directory is well-formed, and
everything that is listed is inside the image. -/
def WellFormed (img : Bytes) : Prop :=
  ∃ vol listed n, readVolume (fileDev img) = .ok vol ∧
    (∀ fuel, n ≤ fuel → fileTree (fileDev img) vol.root fuel = .ok listed) ∧
    EveryDir vol.root listed (GoodDir img) ∧ ∀ x ∈ listed, InsideImage img x.2.node.dirent.data

end Xdvdfs.Spec
