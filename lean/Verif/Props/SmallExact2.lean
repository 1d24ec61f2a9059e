import Verif.Props.Partition
import Verif.Props.ReadBuf

/-!
# C128 and C147: exactly what happens
-/

namespace Xdvdfs.Props
open Xdvdfs Spec

/-- The byte, counted from the beginning of a stream, that a seek asks for; negative before the beginning. -/
def Spec.wantedByte (len pos : Nat) : SeekFrom → Int
  | .start n => n
  | .fromEnd n => len + n
  | .current n => pos + n

/-- C128, exactly: a seek in a partition that begins at byte `base` of a disc is refused if and only if it asks for a
byte before the beginning of the disc.  Otherwise it goes to the byte asked for, counted from the beginning of the
partition, and returns the number of this byte counted from the beginning of the disc. -/
theorem C128_exactly {base len pos : Nat} (w : SeekFrom) :
    (∀ q, partSeek base (base + len) (base + pos) w = .ok q ↔ (q : Int) = base + Spec.wantedByte len pos w) ∧
    ((∃ e, partSeek base (base + len) (base + pos) w = .err e) ↔ (base : Int) + Spec.wantedByte len pos w < 0) := by
  cases w with
  | start n =>
    simp only [partSeek, fileSeek, Spec.wantedByte, Res.ok.injEq, reduceCtorEq, exists_false, false_iff]
    refine ⟨fun q => ⟨fun h => by omega, fun h => by omega⟩, by omega⟩
  | fromEnd n =>
    simp only [partSeek, fileSeek, Spec.wantedByte]
    split
    · refine ⟨fun q => ⟨fun h => (by cases h), fun h => (by omega)⟩, ⟨fun _ => (by omega), fun _ => ⟨_, rfl⟩⟩⟩
    · simp only [Res.ok.injEq, reduceCtorEq, exists_false, false_iff]
      refine ⟨fun q => ⟨fun h => by omega, fun h => by omega⟩, by omega⟩
  | current n =>
    simp only [partSeek, fileSeek, Spec.wantedByte]
    split
    · refine ⟨fun q => ⟨fun h => (by cases h), fun h => (by omega)⟩, ⟨fun _ => (by omega), fun _ => ⟨_, rfl⟩⟩⟩
    · simp only [Res.ok.injEq, reduceCtorEq, exists_false, false_iff]
      refine ⟨fun q => ⟨fun h => by omega, fun h => by omega⟩, by omega⟩

/-- A seek to before the partition, and one to before the disc. -/
example : partSeek 34078720 (34078720 + 4096) (34078720 + 0) (.current (-5)) = .ok 34078715 ∧
    ∃ e, partSeek 5 (5 + 4096) (5 + 0) (.current (-6)) = .err e :=
  ⟨((C128_exactly _).1 _).2 (by decide), (C128_exactly _).2.2 (by decide)⟩

/-- C147, exactly, for a file that is not empty and can be read as a whole: a buffer is filled with the file and
what follows it in the image; this fails if and only if the image ends before the buffer is full. -/
theorem C147_exactly {img : Bytes} {d : DiskData} {content : Bytes} (h : readDataAll (fileDev img) d = .ok content)
    (h0 : 0 < content.length) (buf : Bytes) :
    (∀ b, readData (fileDev img) d buf = .ok b ↔
      b = (content ++ img.drop (2048 * d.data.sector.toNat + content.length)).take buf.length ∧ b.length = buf.length) ∧
    ((∃ e, readData (fileDev img) d buf = .err e) ↔ img.length < 2048 * d.data.sector.toNat + buf.length) := by
  unfold readDataAll at h
  split at h
  · cases h; simp at h0
  · next hne =>
    obtain ⟨off, h1, h2⟩ := Res.bind_eq_ok.1 h
    have hlen := (fileDev img).read_len _ _ _ h2
    rw [Region.offset_of_lt (by omega)] at h1
    simp only [Nat.add_zero, Res.ok.injEq] at h1
    subst h1
    rw [fileDev_read, fileRead, if_neg (by omega)] at h2
    split at h2
    · rename_i hroom
      simp only [Res.ok.injEq] at h2
      have happ : content ++ img.drop (2048 * d.data.sector.toNat + content.length) = img.drop (2048 * d.data.sector.toNat) := by
        rw [← h2, slice, ← List.drop_drop]
        rw [show ((img.drop (2048 * d.data.sector.toNat)).take d.data.size.toNat).length = d.data.size.toNat by
          rw [List.length_take, List.length_drop]; omega]
        exact List.take_append_drop _ _
      rw [happ]
      have hrd : readData (fileDev img) d buf = fileRead img (2048 * d.data.sector.toNat) buf.length := by
        unfold readData
        rw [if_neg hne, Region.offset_of_lt (by omega)]
        rfl
      rw [hrd]
      unfold fileRead
      by_cases hz : buf.length = 0
      · rw [if_pos hz, hz]
        simp
        omega
      · rw [if_neg hz]
        split
        · rename_i hr
          have hl : (slice img (2048 * d.data.sector.toNat) buf.length).length = buf.length := slice_length _ _ _ hr
          constructor
          · intro b
            simp only [Res.ok.injEq]
            constructor
            · rintro rfl; exact ⟨rfl, hl⟩
            · rintro ⟨rfl, _⟩; rfl
          · simp only [reduceCtorEq, exists_false, false_iff]; omega
        · rename_i hr
          constructor
          · intro b
            simp only [reduceCtorEq, false_iff]
            rintro ⟨rfl, hb⟩
            rw [List.length_take, List.length_drop] at hb
            omega
          · simp only [Res.err.injEq, exists_eq', true_iff]; omega
    · cases h2

/-- The hypotheses of `C147_exactly` hold for a file of one byte at the beginning of an image of three, with a buffer of two. -/
example : readDataAll (fileDev [1, 2, 3]) ⟨⟨0, 1⟩, 0x80, 1⟩ = .ok [1] ∧
    readData (fileDev [1, 2, 3]) ⟨⟨0, 1⟩, 0x80, 1⟩ [7, 7] = .ok [1, 2] := by decide

end Xdvdfs.Props
