import Verif.Model.MemDev
import Verif.Spec.Pack

/-!
# Specification vocabulary for packing into memory
-/

namespace Xdvdfs.Spec

/-- Copying a file of the source never delivers an empty chunk: reading stops when nothing is left. -/
def NoEmptyChunks (fs : SourceFs) : Prop :=
  ∀ p e, EntryIn fs.readDir p e → e.isDir = false → [] ∉ (fs.copy (p ++ [e.name]) 0 e.len).1

/-- Packing into an empty file, without faults, succeeds; `img` is the file then, and `log` the progress reported. -/
def PacksTo (fs : SourceFs) (fuel : Nat) (img : Bytes) (log : List Progress) : Prop :=
  ∃ s', createImage (fileEnv fs (fun _ => none)) fuel ⟨⟨[], []⟩, []⟩ = (.ok (), s') ∧ s'.dev.img = img ∧ s'.log = log

/-- Packing into a buffer with contents `b` succeeds; `b'` is the buffer then, and `log` the progress reported. -/
def FillsBuffer (env : PackEnv Bytes) (fuel : Nat) (b b' : Bytes) (log : List Progress) : Prop :=
  createImage env fuel ⟨b, []⟩ = (.ok (), ⟨b', log⟩)

end Xdvdfs.Spec
