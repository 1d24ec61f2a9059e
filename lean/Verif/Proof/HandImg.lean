import Verif.Model.ImgFs
import Verif.Proof.Codec

/-!
# Images written out by hand

A file of `k` zero bytes followed by `X`, as a device the kernel can evaluate: reads behind the zeros
do not go through them.
-/

namespace Xdvdfs

def handRead (k : Nat) (X : Bytes) (off n : Nat) : Res Bytes :=
  if n = 0 then .ok []
  else if off + n ≤ k + X.length then
    if k ≤ off then .ok (slice X (off - k) n) else .ok (slice (List.replicate k 0 ++ X) off n)
  else .err .io

theorem handRead_eq (k : Nat) (X : Bytes) (off n : Nat) :
    handRead k X off n = fileRead (List.replicate k 0 ++ X) off n := by
  unfold handRead fileRead
  rw [List.length_append, List.length_replicate]
  by_cases h0 : n = 0
  · rw [if_pos h0, if_pos h0]
  · rw [if_neg h0, if_neg h0]
    by_cases h1 : off + n ≤ k + X.length
    · rw [if_pos h1, if_pos h1]
      by_cases h2 : k ≤ off
      · rw [if_pos h2]
        simp only [slice]
        rw [List.drop_append, List.length_replicate, List.drop_eq_nil_of_le (as := List.replicate k 0) (by rw [List.length_replicate]; exact h2),
          List.nil_append]
      · rw [if_neg h2]
    · rw [if_neg h1, if_neg h1]

/-- The device of the file. -/
def handDev (k : Nat) (X : Bytes) : Dev where
  read := handRead k X
  read_len := by
    intro off n b h
    rw [handRead_eq] at h
    exact (fileDev _).read_len off n b h

theorem handDev_eq (k : Nat) (X : Bytes) : fileDev (List.replicate k 0 ++ X) = handDev k X := by
  have : (fileDev (List.replicate k 0 ++ X)).read = (handDev k X).read := by
    funext off n
    exact (handRead_eq k X off n).symm
  generalize fileDev (List.replicate k 0 ++ X) = d at *
  generalize handDev k X = d' at *
  cases d; cases d'
  cases this
  rfl

/-- A volume descriptor followed by a root table of one sector. -/
def handImage (table : Bytes) : Bytes :=
  (VolDesc.new ⟨33, 2048⟩).ser ++ (table ++ List.replicate (2048 - table.length) 0xff)

end Xdvdfs
