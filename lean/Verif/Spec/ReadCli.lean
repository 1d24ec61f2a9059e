import Verif.Model.ReadCli
import Verif.Spec.Reader
import Verif.Spec.CliPaths

/-!
# Vocabulary for the reading commands
-/

namespace Xdvdfs.Spec

open Xdvdfs

/-- The path names a file that holds these bytes and is not named like a part of a compressed image. -/
def PlainFile (h : Host) (fs : HostFs) (image : Str) (content : Bytes) : Prop :=
  (∃ q, h.stat fs image = some (q, .file content)) ∧ pathExtension image ≠ some ['c', 's', 'o']

/-- The bytes `disc` are a whole disc whose game partition is `part`: `part` has a volume and begins at one of the known
partition offsets, and none of those that are tried earlier has a volume. -/
def DiscHolds (disc part : Bytes) : Prop :=
  ∃ before o after, partitionOffsets = before ++ o :: after ∧ o ≤ disc.length ∧ disc.drop o = part ∧
    VolumeAt (fileDev part) 0 ∧ ∀ o' ∈ before, ¬ VolumeAt (fileDev disc) o'

/-- The image named `image` opens, and `d` is the checksum of its contents. -/
def ChecksumIs {H : Type} (h : Host) (r : Reader H) (fs : HostFs) (image : Str) (d : H) : Prop :=
  ∃ dev vol, openPath h r.ciso r.fuel fs image = .ok dev ∧ readVolume dev = .ok vol ∧
    checksum r.hash dev vol r.fuel = .ok d

/-- The image named `image` opens, and these are the lines of the listing of its tree. -/
def TreeIs {H : Type} (h : Host) (r : Reader H) (fs : HostFs) (image : Str) (lines : List Str) : Prop :=
  ∃ dev, openPath h r.ciso r.fuel fs image = .ok dev ∧ cmdTree r.checked true dev image r.fuel = .ok lines

/-- The path names a plain image or a whole disc, and the image `img` in it was packed from the tree `S`. -/
def StoredTree (h : Host) (fs : HostFs) (image : Str) (img : Bytes) (S : SourceFs) (content : Path → Bytes) : Prop :=
  (∃ disc, PlainFile h fs image disc ∧ DiscHolds disc img) ∧ PackedFrom img S content

/-- The list of all entries at and below the directory `p`, each with the path of its directory relative to `p`. -/
def AllBelow (readDir : Path → Res (List FileEntry)) (p : Path) (all : List (Path × FileEntry)) : Prop :=
  all.Nodup ∧ ∀ q e, (q, e) ∈ all ↔ EntryIn readDir (p ++ q) e

end Xdvdfs.Spec
