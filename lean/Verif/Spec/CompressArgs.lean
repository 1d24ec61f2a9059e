import Verif.Model.Compress
import Verif.Spec.CliPaths

/-!
# What users expect of `compress` and of opening compressed images
-/

namespace Xdvdfs.Spec

open Xdvdfs

/-- What can stand before a name in a path string: nothing, or something that ends in a slash. -/
def DirPrefix (dir : Str) : Prop := dir = [] ∨ dir.getLast? = some '/'

/-- What stands before a name names the directory `d` of the host. -/
def PrefixNames (h : Host) (fs : HostFs) (dir : Str) (d : HostPath) : Prop :=
  DirPrefix dir ∧ fs d = some .dir ∧ ((dir = [] ∧ d = h.cwd) ∨ (dir ≠ [] ∧ h.resolve fs dir = .ok d))

/-- The name of part `i`, counted from 1: `stem.i.cso`. -/
def partFile (stem : Str) (i : Nat) : Str := stem ++ '.' :: (Nat.toDigits 10 i ++ ['.', 'c', 's', 'o'])

/-- The encoder numbers the parts: the parts of `dir/stem.ext` are `dir/stem.1.cso`, `dir/stem.2.cso`, and so on. -/
def NumberedParts (c : Ciso) : Prop :=
  ∀ dir name stem i, DirPrefix dir → HostName name → HasStem name stem →
    c.partName (dir ++ name) i = dir ++ partFile stem (i + 1)

/-- The encoder and the decoder belong together: opened again, the parts of an image read like the sectors that were
encoded; there is at least one part, and no more parts were created on the way than there are at the end. -/
def CisoWorks (c : Ciso) : Prop :=
  ∀ secs, (∀ s ∈ secs, s.length = 2048) →
    c.openParts (c.final secs.length secs) = .ok (fileDev secs.flatten) ∧ c.final secs.length secs ≠ [] ∧
    ∀ k, (c.partial_ secs.length (secs.take k)).length ≤ (c.final secs.length secs).length

/-- One read from a file delivers all that was asked for and exists. -/
def WholeReads (most : Path → (off n : Nat) → Nat) : Prop := ∀ p off n, n ≤ most p off n

/-- The sectors of an image. -/
def sectorsOf (img : Bytes) : List Bytes := (List.range (img.length / 2048)).map (fun k => slice img (2048 * k) 2048)

/-- The parts that the encoder makes of an image. -/
def partsOf (c : Ciso) (img : Bytes) : List Bytes := c.final (sectorsOf img).length (sectorsOf img)

/-- A path string without `.` and `..`. -/
def NoDots (path : Str) : Prop := ['.'] ∉ hostComps path ∧ ['.', '.'] ∉ hostComps path

/-- The output path is `name` in the directory `d` of the host, and `stem` is the name without its extension. -/
def OutputAt (h : Host) (fs : HostFs) (image name stem : Str) (d : HostPath) : Prop :=
  ∃ dir, image = dir ++ name ∧ HostName name ∧ HasStem name stem ∧ PrefixNames h fs dir d

/-- The parts in the directory `d` are these, from part 1 on. -/
def StoredParts (fs : HostFs) (d : HostPath) (stem : Str) (parts : List Bytes) : Prop :=
  ∀ i b, parts[i]? = some b → fs (d ++ [partFile stem (i + 1)]) = some (.file b)

/-- No file of the source, which is a file itself or a directory, has the place of a part. -/
def NoPartInSource (fs : HostFs) (src d : HostPath) (stem : Str) : Prop :=
  ∀ i x, fs (d ++ [partFile stem (i + 1)]) = some (.file x) → ¬ src <+: d ++ [partFile stem (i + 1)]

/-- Nothing stands in the way of the parts: they are not refused, and none of them is a directory. -/
def PartsWritable (h : Host) (fs : HostFs) (d : HostPath) (stem : Str) : Prop :=
  ∀ i, h.faults (d ++ [partFile stem (i + 1)]) = .none ∧ fs (d ++ [partFile stem (i + 1)]) ≠ some .dir

/-- Packing the directory `src` of the host into an empty file gives this image. -/
def HostPacksTo (t : Tool) (r : DirReader) (fs : HostFs) (src : HostPath) (img : Bytes) : Prop :=
  ∃ s', createImage (fileEnv (stdFs r fs src) (fun _ => none)) t.fuel ⟨⟨[], []⟩, []⟩ = (.ok (), s') ∧ s'.dev.img = img

end Xdvdfs.Spec
