import Verif.Model.CliPaths
import Verif.Spec.StdFs

/-!
# What users expect of the paths on the command line
-/

namespace Xdvdfs.Spec

open Xdvdfs

/-- `stem` is `name` without its extension.  A dot at the start does not begin an extension. -/
def HasStem (name stem : Str) : Prop :=
  (∃ ext, name = stem ++ '.' :: ext ∧ '.' ∉ ext ∧ stem ≠ []) ∨ (stem = name ∧ '.' ∉ name.drop 1)

/-- The last component of a path string, `.` aside, is `name`: the path is `name`, possibly after a directory and a
slash, and possibly followed by slashes and dots that name the same thing. -/
def LastComponent (path name : Str) : Prop :=
  ∃ before, (hostComps path).filter (fun c => decide (c ≠ ['.'])) = before ++ [name]

/-- Where `-c DIR` or `-c DIR FILE` puts the image of the directory `src`: at `FILE`, or beside the directory under its
name with the extension replaced by `iso`. -/
def CreateOut (h : Host) (file : Option Str) (src out : HostPath) : Prop :=
  match file with
  | some s => out = placeOf h s
  | none => ∃ parent name stem, src = parent ++ [name] ∧ HasStem name stem ∧
      out = parent ++ [stem ++ ['.', 'i', 's', 'o']]

/-- The bytes `img` are an image of what is in the directory `src` of `fs`: unpacked into any fresh place on any host,
they give exactly what is in `src`. -/
def ImageOf (img : Bytes) (fs : HostFs) (src : HostPath) : Prop :=
  ∀ (h : Host) (host : HostFs) (dest : Str) (clones : Bool), (∀ p, h.faults p = .none) → FreshDest h dest host →
    ∃ n host', (∀ fuel, n < fuel → cmdUnpack h img clones dest fuel host = (.ok (), host')) ∧
      SameBelow host' (placeOf h dest) fs src ∧ ChangesOnlyInside h dest host host'

/-- The last flush of the output buffer, when the file is closed, did not fail. -/
def FlushedClean (t : Tool) (faults : Faults) (source : SourceFs) : Prop :=
  (packFile source (cliPolicy t.early) faults t.fuel).2.buf = []

/-- The bytes `img` are what packing the source `S` wrote, the files of `S` have the given contents, and the names in `S`
are names for the host. -/
def PackedFrom (img : Bytes) (S : SourceFs) (content : Path → Bytes) : Prop :=
  (∃ faults fuel img0 s', createImage (fileEnv S faults) fuel ⟨⟨img0, []⟩, []⟩ = (.ok (), s') ∧ s'.dev.img = img) ∧
  Bounded S ∧ FaithfulTo S content ∧ ∀ p e, EntryIn S.readDir p e → HostName e.name

/-- Where `unpack` puts an image if it is given no destination: into a directory named like the image, without the
extension, in the working directory.  A path that ends in `..` names no image. -/
def DefaultDest (image dest : Str) : Prop :=
  ∃ name, LastComponent image name ∧ name ≠ ['.', '.'] ∧ HasStem name dest

/-- The path string `image` names a file of the host that holds an image packed from `S`. -/
def StoredImage (h : Host) (fs : HostFs) (image : Str) (S : SourceFs) (content : Path → Bytes) : Prop :=
  ∃ p img, h.stat fs image = some (p, .file img) ∧ PackedFrom img S content

/-- The names in the image have no slash in them. -/
def NoSlashNames (img : Bytes) (fuel : Nat) : Prop :=
  ∀ base vol tree, offsetNew (fileDev img) = .ok base → readVolume (offsetDev (fileDev img) base) = .ok vol →
    fileTree (offsetDev (fileDev img) base) vol.root fuel = .ok tree → ∀ x ∈ tree, '/' ∉ x.2.nameStr

end Xdvdfs.Spec
