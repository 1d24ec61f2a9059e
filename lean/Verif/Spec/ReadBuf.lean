import Verif.Model.BlockDev

/-!
# What reading into a buffer should do
-/

namespace Xdvdfs.Spec

open Xdvdfs

/-- The contents of a file put into a buffer: the buffer starts with the file, cut off at the end of the buffer, and the
rest of the buffer is as it was. -/
def putInto (buf content : Bytes) : Bytes := content.take buf.length ++ buf.drop content.length

/-- A device is the same however its bytes are asked for: a shorter read at the same place gives the beginning of a longer
one. -/
def Consistent (dev : Dev) : Prop :=
  ∀ off n m b, dev.read off n = .ok b → 0 < m → m ≤ n → dev.read off m = .ok (b.take m)

end Xdvdfs.Spec
