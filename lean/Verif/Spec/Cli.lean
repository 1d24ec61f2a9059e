import Verif.Model.Cli
import Verif.Model.Show
import Verif.Spec.ImgFs

/-!
# What users expect of the command line tool
-/

namespace Xdvdfs.Spec

open Xdvdfs

/-- The bytes `img` are an image, at the first offset that has a volume, whose directories list as `tree` and whose
files read as `content`. -/
def ImageHolds (img : Bytes) (wfuel : Nat) (tree : Path → Res (List FileEntry)) (content : Path → Bytes) : Prop :=
  ∃ base vol, offsetNew (fileDev img) = .ok base ∧ readVolume (offsetDev (fileDev img) base) = .ok vol ∧
    tree = imgReadDir (offsetDev (fileDev img) base) wfuel vol.root ∧
    ImgContent (offsetDev (fileDev img) base) wfuel vol.root content

/-- The last sector of every file of the image `img` is in it to its end. -/
def FileSectorsIn (img : Bytes) (wfuel : Nat) : Prop :=
  ∀ base vol, offsetNew (fileDev img) = .ok base → readVolume (offsetDev (fileDev img) base) = .ok vol →
    CompleteSectors (offsetDev (fileDev img) base) wfuel vol.root

/-- The paths that rewriting an image is expected to touch: the image, the name it is moved to, and the new image. -/
def touched (dir : Option HostPath) (src : HostPath) : List HostPath := [src, oldPath src, rewriteDest dir src]

/-- Rewriting one image does not touch what rewriting the other touches. -/
def Separate (dir : Option HostPath) (a b : HostPath) : Prop := ∀ q ∈ touched dir a, q ∉ touched dir b

/-- Where the new image is expected: in the directory given with `-d` under the name of the image, or, without `-d`,
in the place of the image. -/
def expectedDest (dir : Option HostPath) (src : HostPath) : HostPath :=
  match dir with
  | some d => d ++ src.getLast?.toList
  | none => src

/-- A file of the host has the given bytes. -/
def IsFile (fs : HostFs) (p : HostPath) (data : Bytes) : Prop := fs p = some (.file data)

/-- The last flush of the output buffer, when the file is closed, did not fail. -/
def ClosesCleanly (t : Tool) (faults : Faults) : Prop :=
  ∀ img, (packImage t img faults).1 = .ok () → (packImage t img faults).2.buf = []

/-- The arguments after the first task of `-c`: each task is `-c DIR` or `-c DIR FILE`. -/
def createArgs (tasks : List (Str × Option Str)) : List Str :=
  tasks.flatMap (fun x => ['-', 'c'] :: x.1 :: x.2.toList)

/-! ## Printing what is in an image -/

/-- The string `s` names the directory `p`: `/` names the root, and every other directory is named by its components,
each preceded by a slash, in any letter case. -/
def NamesDir (p : Path) (s : Str) : Prop :=
  (p = [] ∧ s = ['/']) ∨ ∃ q, q ≠ [] ∧ SamePath p q ∧ PlainPath q ∧ s = slashPath q

/-- The line expected for an entry of the source. -/
def entryLine (x : Path × FileEntry) : Str :=
  slashPath (x.1 ++ [x.2.name]) ++
    (if x.2.isDir then "/ (0 bytes)" else s!" ({x.2.len} bytes)").toList

/-- The line expected at the end of the listing of an image. -/
def summaryLine (files bytes : Nat) (imagePath : Str) : Str :=
  s!"{files} files, {bytes} bytes in ".toList ++ imagePath

/-- The child offset a link designates. -/
def linkOffset (link : UInt16) : Option Nat := if link = 0 then none else some (4 * link.toNat)

/-- The entries of a listing take at most `32 * 1780` bytes, so that its table takes at most 64 KiB. -/
def SmallListing (l : List FileEntry) : Prop :=
  (l.map (fun e => (14 + e.name.length + 3) / 4 * 4)).sum ≤ 56960

/-- The printed values are those of the entry `d`; in particular the child offsets are those designated by its links. -/
def Describes (i : DirentInfo) (d : DirEnt) : Prop :=
  i.name = d.nameStr ∧ i.offset = d.offset ∧ i.left = linkOffset d.node.left ∧ i.right = linkOffset d.node.right ∧
  i.sector = d.node.dirent.data.sector.toNat ∧ i.size = d.node.dirent.data.size.toNat ∧ i.attrs = d.node.dirent.attrs

/-- The printed entries are those of the listing `l`, in some order: each is an entry stored on the device and is
described truly, and every printed child offset is where, counted from the first entry of the directory, another printed
entry is stored. -/
def TrueListing (dev : Dev) (l : List FileEntry) (infos : List DirentInfo) : Prop :=
  (infos.map DirentInfo.name).Perm (l.map FileEntry.name) ∧
  ∃ start, (infos ≠ [] → ∃ j ∈ infos, j.offset = start) ∧
    ∀ i ∈ infos, (∃ d, readDirent dev i.offset = .ok (some d) ∧ Describes i d) ∧
      ∀ o, i.left = some o ∨ i.right = some o → ∃ j ∈ infos, j.offset = start + o

end Xdvdfs.Spec
