import Verif.Model.ImgFs
import Verif.Spec.Pack
import Verif.Spec.Trie

/-!
# Specification vocabulary for images as pack sources

The tree of a source image, described only through scanning its directory tables; no cache.
-/

namespace Xdvdfs.Spec

/-- The first entry with the given name. -/
def firstNamed (ds : List DirEnt) (n : Str) : Option DirEnt := ds.find? (fun d => d.nameStr == n)

/-- The table of the directory at a path below the table `tab`: component by component the first
entry with that exact name. `fuel` bounds each scan. -/
def imgTable (dev : Dev) (fuel : Nat) : Region → Path → Res Region
  | tab, [] => .ok tab
  | tab, c :: cs => do
    let ds ← scanAll dev tab fuel
    let d ← Res.ofOption .noDirent (firstNamed ds c)
    let t ← Res.ofOption .isNotDirectory d.node.dirent.direntTable
    imgTable dev fuel t cs

/-- The entries of the directory at a path. -/
def imgDirents (dev : Dev) (fuel : Nat) (root : Region) (p : Path) : Res (List DirEnt) := do
  let tab ← imgTable dev fuel root p
  scanAll dev tab fuel

/-- The listing of the directory at a path: names, kinds and sizes of its entries. -/
def imgReadDir (dev : Dev) (fuel : Nat) (root : Region) (p : Path) : Res (List FileEntry) := do
  let ds ← imgDirents dev fuel root p
  pure (ds.map fileEntryOf)

/-- The files of the image at `dev` can be read, and `content` is what reading them returns. -/
def ImgContent (dev : Dev) (fuel : Nat) (root : Region) (content : Path → Bytes) : Prop :=
  ∀ p ds d, DirOf (imgReadDir dev fuel root) p → imgDirents dev fuel root p = .ok ds → d ∈ ds →
    d.node.dirent.isDirectory = false →
    readDataAll dev d.node.dirent = .ok (content (p ++ [d.nameStr]))

/-- A copier never delivers more than it is asked for, and when it succeeds on a range that can be
read, it has delivered the bytes of that range. -/
def CopiesFrom (dev : Dev) (copier : Copier) : Prop :=
  ∀ off n, (copier off n).1.flatten.length ≤ n ∧
    ∀ b k, dev.read off n = .ok b → (copier off n).2 = .ok k → (copier off n).1.flatten = b

/-- Parts of a range that can be read can be read, with the same bytes. -/
def PartsReadable (dev : Dev) : Prop := ∀ off n b, dev.read off n = .ok b → HoldsAt dev off b

/-- A range that can be read can be read to the end of its last sector: the device ends with a
complete sector. -/
def WholeSectors (dev : Dev) : Prop :=
  ∀ off n b, off % 2048 = 0 → dev.read off n = .ok b → ∃ b', dev.read off (roundUp n) = .ok b'

/-- The last sector of every file of the image is on the device to its end, also the part of it behind the file. -/
def CompleteSectors (dev : Dev) (fuel : Nat) (root : Region) : Prop :=
  ∀ p ds d, DirOf (imgReadDir dev fuel root) p → imgDirents dev fuel root p = .ok ds → d ∈ ds →
    d.node.dirent.isDirectory = false → 0 < d.node.dirent.data.size.toNat →
    ∃ b, dev.read (2048 * d.node.dirent.data.sector.toNat) (roundUp d.node.dirent.data.size.toNat) = .ok b

/-- Two ranges that follow each other and can be read can be read together. -/
def JoinsReads (dev : Dev) : Prop :=
  ∀ off n m a b, dev.read off n = .ok a → dev.read (off + n) m = .ok b → ∃ c, dev.read off (n + m) = .ok c

/-- Every name of the image is made of characters below `U+0100`. -/
def Latin1Image (dev : Dev) (fuel : Nat) (root : Region) : Prop :=
  ∀ p e, EntryIn (imgReadDir dev fuel root) p e → Latin1 e.name

end Xdvdfs.Spec
