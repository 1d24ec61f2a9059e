import Verif.Props.Fuse

/-!
# Reading part of a file: when it is right (C14, C55)
-/

namespace Xdvdfs.Props
open Xdvdfs Spec

/-- What a request for part of a file gives, for every request: nothing for an empty file; an error at or after the end; and
otherwise as many bytes of the image as were requested, but not more than the size of the file, even behind its end, or an error
if the image has fewer. -/
theorem C14_read_offset_result (image : Bytes) (d : DiskData) (size offset : Nat) :
    (d.data.size = 0 → readDataOffset (fileDev image) d size offset = .ok []) ∧
    (d.data.size ≠ 0 → d.data.size.toNat ≤ offset →
      readDataOffset (fileDev image) d size offset = .err .sizeOutOfBounds) ∧
    (offset < d.data.size.toNat →
      (size = 0 ∨ 2048 * d.data.sector.toNat + offset + min size d.data.size.toNat ≤ image.length →
        readDataOffset (fileDev image) d size offset =
          .ok ((image.drop (2048 * d.data.sector.toNat + offset)).take (min size d.data.size.toNat))) ∧
      (size ≠ 0 → image.length < 2048 * d.data.sector.toNat + offset + min size d.data.size.toNat →
        readDataOffset (fileDev image) d size offset = .err .io)) := by
  refine ⟨fun h => ?_, fun h h' => ?_, fun ho => ?_⟩
  · unfold readDataOffset
    simp [h]
  · unfold readDataOffset
    simp only [if_neg h]
    unfold Region.offset
    rw [if_pos (by omega)]
    rfl
  · have hne : d.data.size ≠ 0 := by rintro h; rw [h] at ho; simp at ho
    have e : readDataOffset (fileDev image) d size offset =
        fileRead image (2048 * d.data.sector.toNat + offset) (min size d.data.size.toNat) := by
      unfold readDataOffset
      simp only [if_neg hne]
      rw [Region.offset_of_lt ho]
      rfl
    rw [e]
    unfold fileRead
    constructor
    · intro h
      split
      · rename_i h0; rw [h0]; simp
      · rw [if_pos (by omega)]; rfl
    · intro h0 h
      rw [if_neg (by omega), if_neg (by omega)]

/-- C14, exactly: in a file whose bytes lie inside the image, a request is answered with the bytes of the file from the offset
on, up to the size requested, exactly if the file is empty, or the offset is before its end and the request begins at
the start of the file or ends inside of it. -/
theorem C14_read_offset_iff (image : Bytes) (d : DiskData) (size offset : Nat)
    (hi : 2048 * d.data.sector.toNat + d.data.size.toNat ≤ image.length) :
    readDataOffset (fileDev image) d size offset = .ok (((fileBytes image d).drop offset).take size) ↔
      d.data.size = 0 ∨ offset < d.data.size.toNat ∧ (offset = 0 ∨ offset + size ≤ d.data.size.toNat) := by
  obtain ⟨h1, h2, h3⟩ := C14_read_offset_result image d size offset
  by_cases hz : d.data.size = 0
  · rw [h1 hz]
    simp [hz, fileBytes]
  · by_cases ho : offset < d.data.size.toNat
    · constructor
      · intro h
        refine .inr ⟨ho, ?_⟩
        have hlen : ∀ b, readDataOffset (fileDev image) d size offset = .ok b → b.length = min size d.data.size.toNat :=
          fun b hb => (C14_read_offset_prefix_partial image d size offset b ho hb).1
        have := hlen _ h
        simp [fileBytes] at this
        omega
      · rintro (h | ⟨_, h⟩)
        · exact absurd h hz
        · rw [(h3 ho).1 (by omega)]
          simp only [fileBytes, List.drop_take, List.take_take, List.drop_drop]
          congr 2
          omega
    · rw [h2 hz (by omega)]
      constructor
      · intro h; cases h
      · rintro (h | ⟨h, _⟩)
        · exact absurd h hz
        · exact absurd h ho

/-- A request at the start of a file may be longer than the file; one at the second byte may not. -/
example : readDataOffset (fileDev [1, 2, 3, 4, 5, 6, 7, 8]) ⟨⟨0, 4⟩, 0x20, 1⟩ 100 0 = .ok [1, 2, 3, 4] ∧
    readDataOffset (fileDev [1, 2, 3, 4, 5, 6, 7, 8]) ⟨⟨0, 4⟩, 0x20, 1⟩ 100 1 = .ok [2, 3, 4, 5] :=
  ⟨(C14_read_offset_iff _ ⟨⟨0, 4⟩, 0x20, 1⟩ 100 0 (by decide)).2 (.inr (by decide)), by decide⟩

/-- C55, exactly: after any history of requests, a read of a file is answered with the bytes of the file from the offset on, up
to the size requested, exactly if the file is empty, or the offset is before its end and the request begins at the
start of the file or ends inside of it. -/
theorem C55_mounted_read_iff {m : Mount} (hp : PartsReadable m.dev) {ops : List FuseOp} {rs : List FuseReply}
    {c : FuseCache} (hrun : fuseRun m .new ops = .ok (rs, c)) {i : Nat} {d : DirEnt} (ht : Told m ops i d) {b : Bytes}
    (hb : readDataAll m.dev d.node.dirent = .ok b) (offset size : Nat) :
    fuseStep m c (.read i offset size) = .ok (.data ((b.drop offset).take size), c) ↔
      b = [] ∨ offset < b.length ∧ (offset = 0 ∨ offset + size ≤ b.length) := by
  obtain ⟨_, _, _, hr, _⟩ := C52_inode_numbers hrun ht
  have hblen : b.length = d.node.dirent.data.size.toNat := readDataAll_length hb
  constructor
  · intro h
    by_cases hne : b = []
    · exact .inl hne
    · obtain ⟨k1, k2⟩ := C55_past_end_false hrun ht hb hne offset size
      by_cases ho : offset < b.length
      · refine .inr ⟨ho, ?_⟩
        by_cases h0 : offset = 0
        · exact .inl h0
        · refine .inr ?_
          by_cases hle : offset + size ≤ b.length
          · exact hle
          · refine absurd ?_ (k2 (by omega) ho (by omega))
            rw [h, List.take_of_length_le (by simp; omega)]
      · rw [k1 (by omega)] at h
        cases h
  · rintro (h | ⟨h1, h2⟩)
    · rw [(C55_mounted_read_partial hp hrun ht hb offset size).2.2 h, h]
      simp
    · by_cases hle : offset + size ≤ b.length
      · exact (C55_mounted_read_partial hp hrun ht hb offset size).1 h1 hle
      · have h0 : offset = 0 := by omega
        subst h0
        have hs : readDataOffset m.dev d.node.dirent size 0 = readDataOffset m.dev d.node.dirent b.length 0 := by
          unfold readDataOffset
          rw [Nat.min_eq_right (by omega), Nat.min_eq_left (by omega), hblen]
        have := readDataOffset_parts hp hb (offset := 0) (size := b.length) (by omega) (by omega)
        rw [← hs] at this
        have := hr _ _ _ this
        rw [this]
        simp only [List.drop_zero]
        rw [List.take_length, List.take_of_length_le (by omega)]

/-- Reading the whole file `a` of the sample with a buffer that is too long. -/
example : fuseStep twoMount twoCache (.read 2 (0 : Nat) 4096) = .ok (.data [1, 2, 3, 4, 5], twoCache) :=
  (C55_mounted_read_iff two_parts two_run two_told two_read 0 4096).2 (.inr (by decide))

end Xdvdfs.Props
