import Verif.Model.SectorLinear
import Verif.Spec.Pack

/-!
# Specification vocabulary for compression
-/

namespace Xdvdfs.Spec

/-- A single read from a file of the source delivers everything that was asked for and exists. -/
def ReadsWhole (readDir : Path → Res (List FileEntry)) (content : Path → Bytes)
    (read : Path → (off n : Nat) → Res Bytes) : Prop :=
  ∀ p e, EntryIn readDir p e → e.isDir = false → ∀ off n,
    read (p ++ [e.name]) off n = .ok (slice (content (p ++ [e.name])) off n)

/-- A single read of one sector of a file of the source delivers the sector, or the rest of the
file. -/
def ReadsSectors (readDir : Path → Res (List FileEntry)) (content : Path → Bytes)
    (read : Path → (off n : Nat) → Res Bytes) : Prop :=
  ∀ p e, EntryIn readDir p e → e.isDir = false → ∀ i,
    read (p ++ [e.name]) (2048 * i) 2048 = .ok (slice (content (p ++ [e.name])) (2048 * i) 2048)

/-- What the `Read` contract guarantees: a read of at least one byte before the end of the file
delivers at least one byte, and whatever is delivered is a prefix of what was asked for. -/
def ReadsSome (readDir : Path → Res (List FileEntry)) (content : Path → Bytes)
    (read : Path → (off n : Nat) → Res Bytes) : Prop :=
  ∀ p e, EntryIn readDir p e → e.isDir = false → ∀ off n,
    ∃ k, (0 < n → off < (content (p ++ [e.name])).length → 0 < k) ∧
      read (p ++ [e.name]) off n = .ok ((slice (content (p ++ [e.name])) off n).take k)

/-- The sectors the encoder asks for, put together. -/
def viewBytes (copy : BufCopier) (m : SecMap) : Nat → Res Bytes
  | 0 => .ok []
  | n + 1 => do
    let front ← viewBytes copy m n
    let sector ← readSector copy m n 2048
    .ok (front ++ sector)

end Xdvdfs.Spec
