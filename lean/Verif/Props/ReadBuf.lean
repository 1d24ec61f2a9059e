import Verif.Model.ReadBuf
import Verif.Spec.ReadBuf
import Verif.Props.Pack
import Verif.Props.Reader
import Verif.Props.Checksum

/-!
# Reading a file into a buffer (C147)
-/

namespace Xdvdfs.Props

open Xdvdfs Spec

theorem fileDev_consistent (img : Bytes) : Consistent (fileDev img) := by
  intro off n m b h hm hn
  rw [fileDev_read] at h ⊢
  unfold fileRead at h ⊢
  rw [if_neg (by omega)] at h ⊢
  split at h
  · cases h
    rw [if_pos (by omega)]
    simp [slice, List.take_take, Nat.min_eq_left hn]
  · cases h

theorem memDev_consistent (img : Bytes) : Consistent (memDev img) := by
  intro off n m b h hm hn
  change memRead _ _ _ = _ at h
  show memRead _ _ _ = _
  unfold memRead at h ⊢
  split at h
  · cases h
  · next h1 =>
    rw [if_neg h1]
    simp only at h ⊢
    split at h
    · next h2 =>
      cases h
      rw [if_pos (by omega)]
      simp only [slice, List.take_take]
      congr 2; omega
    · cases h

theorem offsetDev_consistent {dev : Dev} (h : Consistent dev) (base : Nat) : Consistent (offsetDev dev base) := by
  intro off n m b hr hm hn
  change offsetRead _ _ _ _ = _ at hr
  show offsetRead _ _ _ _ = _
  unfold offsetRead at hr ⊢
  split at hr
  · next h1 => rw [if_pos h1]; exact h _ _ _ _ hr hm hn
  · cases hr

/-- C147 (partial: buffers that are not longer than the file, and empty files).  Missing: longer buffers, for which the
property is false (`C147_long_buffer_false`).  A file that can be read as a whole can be read into a buffer, and gives the
same bytes. -/
theorem C147_buffer_partial {dev : Dev} (hdev : Consistent dev) {d : DiskData} {content : Bytes}
    (h : readDataAll dev d = .ok content) {buf : Bytes} (hbuf : 0 < buf.length)
    (hl : buf.length ≤ content.length ∨ content = []) : readData dev d buf = .ok (putInto buf content) := by
  unfold readDataAll at h
  unfold readData putInto
  split at h
  · next h0 => cases h; rw [if_pos h0]; simp
  · next h0 =>
    rw [if_neg h0]
    obtain ⟨off, h1, h2⟩ := Res.bind_eq_ok.1 h
    rw [h1]
    have hlen := dev.read_len _ _ _ h2
    have hpos : 0 < d.data.size.toNat := by
      rcases Nat.eq_zero_or_pos d.data.size.toNat with hz | hz
      · exact absurd (UInt32.toNat_inj.1 (by simpa using hz)) h0
      · exact hz
    rcases hl with hl | rfl
    · rw [List.drop_eq_nil_of_le hl, List.append_nil]
      exact hdev _ _ _ _ h2 hbuf (by omega)
    · simp at hlen; omega

/-- C147 (partial, for packed images).  Missing: longer buffers.  Every file of a packed directory is found, and reading it
into a buffer that is not longer puts its first bytes there. -/
theorem C147_packed_partial {fs : SourceFs} {content : Path → Bytes} (hb : Bounded fs) (hf : FaithfulTo fs content)
    {faults : Faults} {fuel : Nat} {img0 : Bytes} {s' : PackState ImgFile}
    (h : createImage (fileEnv fs faults) fuel ⟨⟨img0, []⟩, []⟩ = (.ok (), s')) {p : Path} {e : FileEntry} {q : Path}
    {n : Nat} (he : EntryIn fs.readDir p e) (hd : e.isDir = false) (hq : SamePath (p ++ [e.name]) q) (hplain : PlainPath q)
    (hn : SearchBudget fs.readDir n) :
    ∃ vol d, readVolume (fileDev s'.dev.img) = .ok vol ∧ walkPath (fileDev s'.dev.img) vol.root (slashPath q) n = .ok d ∧
      ∀ buf : Bytes, 0 < buf.length → (buf.length ≤ (content (p ++ [e.name])).length ∨ content (p ++ [e.name]) = []) →
        readData (fileDev s'.dev.img) d.node.dirent buf = .ok (putInto buf (content (p ++ [e.name]))) := by
  obtain ⟨vol, h1, h2, _⟩ := C28_files_read_back hb hf h
  obtain ⟨d, k1, _, _, k2⟩ := h2 p e q n he hd hq hplain hn
  refine ⟨vol, d, h1, k1, fun buf hpos hl => C147_buffer_partial (fileDev_consistent _) k2 hpos hl⟩

/-- C147 is false: in any image, a file that does not end where the image ends and a buffer that is longer than it by a
byte.  The byte of the buffer after the file is overwritten with the byte of the image that follows the file. -/
theorem C147_long_buffer_false {img : Bytes} {d : DiskData} {content buf : Bytes} {x : UInt8}
    (h : readDataAll (fileDev img) d = .ok content) (h0 : 0 < content.length) (hb : buf.length = content.length + 1)
    (hx : img[2048 * d.data.sector.toNat + content.length]? = some x) :
    readData (fileDev img) d buf = .ok (content ++ [x]) := by
  obtain ⟨hroom, hx⟩ := List.getElem?_eq_some_iff.1 hx
  unfold readDataAll at h
  unfold readData
  split at h
  · cases h; simp at h0
  · next hne =>
    rw [if_neg hne]
    obtain ⟨off, h1, h2⟩ := Res.bind_eq_ok.1 h
    have hlen := (fileDev img).read_len _ _ _ h2
    rw [Region.offset_of_lt (by omega)] at h1
    cases h1
    rw [Region.offset_of_lt (by omega)]
    simp only [Res.ok_bind]
    rw [fileDev_read] at h2 ⊢
    unfold fileRead at h2 ⊢
    rw [if_neg (by omega)] at h2 ⊢
    split at h2
    · cases h2
      rw [if_pos (by omega), hb]
      simp only [hlen] at hroom hx ⊢
      rw [← slice_add]
      congr 2
      unfold slice
      rw [List.drop_eq_getElem_cons (by omega)]
      simp [hx]
    · cases h2

/-- A file of three bytes in an image, followed by padding: a buffer of four bytes gets a byte of the padding. -/
example : readDataAll (fileDev [1, 2, 3, 0xff, 0xff]) ⟨⟨0, 3⟩, 0x20, 1⟩ = .ok [1, 2, 3] ∧
    readData (fileDev [1, 2, 3, 0xff, 0xff]) ⟨⟨0, 3⟩, 0x20, 1⟩ [7, 7] = .ok [1, 2] ∧
    readData (fileDev [1, 2, 3, 0xff, 0xff]) ⟨⟨0, 3⟩, 0x20, 1⟩ [7, 7, 7, 7] = .ok [1, 2, 3, 0xff] ∧
    putInto [7, 7, 7, 7] [1, 2, 3] = [1, 2, 3, 7] ∧
    readData (fileDev [1, 2, 3]) ⟨⟨0, 3⟩, 0x20, 1⟩ [7, 7, 7, 7] = .err .io ∧
    readData (fileDev [1, 2, 3]) ⟨⟨0, 0⟩, 0x20, 1⟩ [7, 7] = .ok [7, 7] := by decide

/-- A directory with two files, packed: the first byte of `b`, found as `B`, is read into a buffer. -/
example : ∃ s' vol d, createImage (fileEnv (flatFs twoFiles) (fun _ => none)) 1 ⟨⟨[], []⟩, []⟩ = (.ok (), s') ∧
    readVolume (fileDev s'.dev.img) = .ok vol ∧ walkPath (fileDev s'.dev.img) vol.root ['/', 'B'] 3 = .ok d ∧
    readData (fileDev s'.dev.img) d.node.dirent [0] = .ok [2] := by
  obtain ⟨s', h⟩ := flat_packs twoFiles_ok []
  obtain ⟨vol, d, h1, h2, h3⟩ := C147_packed_partial (p := []) (e := ⟨['b'], false, 2⟩) (q := [['B']]) (n := 3)
    (flat_bounded _) (flat_faithful twoFiles_ok.distinct) h
    ((flat_entries _ _).2 ⟨rfl, (['b'], [2, 3]), by decide, rfl⟩) rfl (by unfold SamePath; decide)
    (by unfold PlainPath; decide) (by
      intro p l hp hl
      have e := (flat_dirs p).1 hp
      subst e
      cases hl
      decide)
  exact ⟨s', vol, d, h, h1, h2, h3 [0] (by decide) (by decide)⟩

end Xdvdfs.Props
