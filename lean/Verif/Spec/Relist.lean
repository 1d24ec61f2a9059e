import Verif.Spec.Lookup
import Verif.Spec.ImgFs

/-!
# The two ways in which a directory is read

A directory can be read by following the links between its entries, or by reading its table from the first byte to the last.
-/

namespace Xdvdfs.Spec

/-- What an entry says about a file or directory: where its data is, its size, its attributes and its name; not where the
entry is or where its links lead. -/
def saysOf (d : DirEnt) : DiskData × Bytes := (d.node.dirent, d.name)

/-- Both ways of reading the directory succeed and give the same entries, up to order. -/
def ReadsAlike (dev : Dev) (fuel : Nat) (tab : Region) : Prop :=
  ∃ linked stored, walkDirentTree dev tab fuel = .ok linked ∧ scanAll dev tab fuel = .ok stored ∧
    (stored.map saysOf).Perm (linked.map saysOf)

end Xdvdfs.Spec
