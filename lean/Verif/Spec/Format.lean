import Verif.Basic

/-!
# Specification vocabulary for the on-disk format

Independent of the model: only arithmetic on bytes.
-/

namespace Xdvdfs.Spec

/-- The number stored at bytes `pos .. pos+k` of `b`, least significant byte first. -/
def numAt (b : Bytes) (pos : Nat) : Nat → Nat
  | 0 => 0
  | k + 1 => (match b[pos]? with | some x => x.toNat | none => 0) + 256 * numAt b (pos + 1) k

/-- The bytes of the magic string `MICROSOFT*XBOX*MEDIA`. -/
def magic : Bytes := "MICROSOFT*XBOX*MEDIA".toList.map (fun c => UInt8.ofNat c.toNat)

/-- `b` looks like a volume descriptor: the magic string at the start and at byte 2028. -/
def IsVolume (b : Bytes) : Prop := b.take 20 = magic ∧ b.drop 2028 = magic

end Xdvdfs.Spec
