import Verif.Spec.Pack
import Verif.Spec.Sector
import Verif.Model.Read

/-!
# Specification vocabulary for the layout of an image

What an image is made of: the descriptor in sector 32, a place for the table of every directory and
for the content of every file.
-/

namespace Xdvdfs.Spec

/-- A place in an image: the table of the directory `path`, or the content of the file `path`. -/
structure Place where
  path : Path
  sector : Nat
  size : Nat
  isDir : Bool

/-- The first byte of a place. -/
def Place.first (x : Place) : Nat := 2048 * x.sector

/-- The byte after the last one of a place; tables take whole sectors. -/
def Place.stop (x : Place) : Nat := 2048 * x.sector + if x.isDir then roundUp x.size else x.size

/-- The places follow each other from sector `s` to sector `e` without a gap, each in as many sectors
as its size needs, and in one if it is empty. -/
def Adjoining : Nat → List Place → Nat → Prop
  | s, [], e => s = e
  | s, x :: xs, e => x.sector = s ∧ Adjoining (s + sectorsFor x.size) xs e

/-- `places` are where the root directory and the entries of the source tree are in the image: one
place for each of them and no other; the one of the root as in the volume descriptor, the one of an
entry as looking up its path finds it. -/
def LaidOut (readDir : Path → Res (List FileEntry)) (img : Bytes) (places : List Place) : Prop :=
  (places.map Place.path).Nodup ∧
  (∀ q, q ∈ places.map Place.path ↔ q = [] ∨ ∃ p e, EntryIn readDir p e ∧ q = p ++ [e.name]) ∧
  ∃ vol, readVolume (fileDev img) = .ok vol ∧
    (∀ x ∈ places, x.path = [] →
      x.isDir = true ∧ vol.root.sector.toNat = x.sector ∧ vol.root.size.toNat = x.size) ∧
    ∀ x ∈ places, ∀ p e fuel, EntryIn readDir p e → x.path = p ++ [e.name] → PlainPath x.path →
      SearchBudget readDir fuel →
      ∃ d, walkPath (fileDev img) vol.root (slashPath x.path) fuel = .ok d ∧
        d.node.dirent.isDirectory = x.isDir ∧ x.isDir = e.isDir ∧
        d.node.dirent.data.sector.toNat = x.sector ∧ d.node.dirent.data.size.toNat = x.size

/-- `n` bytes are enough for the descriptor and everything in the places. -/
def HasRoom (places : List Place) (n : Nat) : Prop :=
  67584 ≤ n ∧ ∀ x ∈ places, x.size ≠ 0 → x.stop ≤ n

end Xdvdfs.Spec
