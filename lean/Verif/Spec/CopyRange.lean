import Verif.Model.Browser
import Verif.Model.MemDev
import Verif.Model.Remap
import Verif.Spec.ImgFs

/-!
# Vocabulary for copying a part of a file
-/

namespace Xdvdfs.Spec

open Xdvdfs

/-- Copying any part of the file at `path`, which holds `data`, into any place of any file succeeds, reports the number of
bytes asked for, and writes that part of `data` there and nothing else; what was not there before is filled with zeros. -/
def CopiesParts (S : SourceFs) (path : Path) (data : Bytes) : Prop :=
  ∀ inOff outOff size f, inOff + size ≤ data.length →
    ∃ f', (fileEnv S (fun _ => none)).copyIn path inOff outOff size f = (.ok size, f') ∧
      (∀ i, i < size → f'.img[outOff + i]? = data[inOff + i]?) ∧
      (∀ i, i < outOff ∨ outOff + size ≤ i → i < f.img.length → f'.img[i]? = f.img[i]?) ∧
      (∀ i, f.img.length ≤ i → i < outOff → 0 < size → f'.img[i]? = some 0) ∧
      (0 < size → f'.img.length = max f.img.length (outOff + size)) ∧ (size = 0 → f'.img = f.img)

/-- Copying into a buffer fills it with the part of `data` that begins at `inOff`, with zeros after the end of `data`. -/
def FillsFrom (copy : BufCopier) (path : Path) (data : Bytes) : Prop :=
  ∀ inOff buf, copy path buf inOff 0 buf.length =
    .ok (buf.length, (data.drop inOff).take buf.length ++ List.replicate (buf.length - (data.length - inOff)) 0)

/-- Listing directories one after the other, each with success, has led from one state of an image that is used as a
source to another. -/
inductive Lists (wf : Nat) : ImgFs → List Path → ImgFs → Prop where
  | none (fs : ImgFs) : Lists wf fs [] fs
  | next {fs fs' fs'' : ImgFs} {dirs : List Path} {dir : Path} {l : List FileEntry} :
    Lists wf fs dirs fs' → fs'.readDir wf dir = .ok (l, fs'') → Lists wf fs (dirs ++ [dir]) fs''

end Xdvdfs.Spec
