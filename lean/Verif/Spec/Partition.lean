import Verif.Model.Partition

/-!
# What it means to use part of a file as if it were a file of its own
-/

namespace Xdvdfs.Spec

open Xdvdfs

/-- Where a seek takes the cursor of a stream of `len` bytes, `pos` being where it is now; `none` is a refusal. -/
def seekTarget (len pos : Nat) : SeekFrom → Option Nat
  | .start n => some n
  | .fromEnd n => if (len : Int) + n < 0 then none else some ((len : Int) + n).toNat
  | .current n => if (pos : Int) + n < 0 then none else some ((pos : Int) + n).toNat

/-- The partitions of a disc begin at these bytes. -/
def discPartitions : List Nat := [0, 405798912, 265879552, 34078720]

end Xdvdfs.Spec
