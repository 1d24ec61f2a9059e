import Verif.Proof.MemDev
import Verif.Props.CliPaths

/-!
# Properties of packing into memory (C89, C90)
-/

namespace Xdvdfs.Props

open Xdvdfs Spec

/-! ## C89: packing into a buffer -/

/-- C89: when packing into a buffer succeeds (partial).  Missing: buffers whose size is not a multiple of 64 KiB, for
which it is false, see `C89_large_enough_false`.  It succeeds exactly if packing into an empty file succeeds, the buffer is at
least as large as that file, and the size of the buffer is a multiple of 64 KiB. -/
theorem C89_buffer_iff_partial {fs : SourceFs} (hn : NoEmptyChunks fs) (fuel : Nat) (b : Bytes) :
    (∃ b' log, FillsBuffer (boxEnv fs) fuel b b' log) ↔
    (∃ img log, PacksTo fs fuel img log ∧ img.length ≤ b.length) ∧ b.length % 65536 = 0 := by
  constructor
  · rintro ⟨b', log, h⟩
    obtain ⟨h1, h2, h3, h4, _⟩ := (box_create fs fuel b _).1 h
    obtain ⟨s', hs⟩ := (file_create fs fuel []).1 ⟨h1, h2⟩
    refine ⟨⟨s'.dev.img, s'.log, ⟨s', hs, rfl, rfl⟩, ?_⟩, h4⟩
    have := (inBuf_iff (plan_nonempty hn fuel h1) b.length).1 h3
    rw [(file_result hs).1, pad_length]
    omega
  · rintro ⟨⟨img, log, ⟨s', hs, rfl, rfl⟩, hl⟩, hm⟩
    obtain ⟨h1, h2⟩ := (file_create fs fuel []).2 ⟨s', hs⟩
    refine ⟨_, _, (box_create fs fuel b _).2 ⟨h1, h2, ?_, hm, rfl⟩⟩
    refine (inBuf_iff (plan_nonempty hn fuel h1) b.length).2 ?_
    rw [(file_result hs).1, pad_length] at hl
    omega

/-- C89: what is in the buffer then.  The buffer keeps its size, and has the bytes, and the progress reported is that,
of packing into a file with the same old contents; it holds the complete source tree. -/
theorem C89_buffer_image {fs : SourceFs} {content : Path → Bytes} (hb : Bounded fs) (hf : FaithfulTo fs content)
    {fuel : Nat} {b b' : Bytes} {log : List Progress} (h : FillsBuffer (boxEnv fs) fuel b b' log) :
    b'.length = b.length ∧ HoldsTree (fileDev b') fs.readDir content ∧
    ∃ s', createImage (fileEnv fs (fun _ => none)) fuel ⟨⟨b, []⟩, []⟩ = (.ok (), s') ∧ s'.dev.img = b' ∧ s'.log = log := by
  obtain ⟨h1, h2, h3, h4, h5⟩ := (box_create fs fuel b _).1 h
  obtain ⟨s', hs⟩ := (file_create fs fuel b).1 ⟨h1, h2⟩
  obtain ⟨k1, k2⟩ := file_result hs
  simp only [PackState.mk.injEq] at h5
  obtain ⟨rfl, rfl⟩ := h5
  have hl := applyTrace_in h3
  have himg : s'.dev.img = applyTrace b ((createP fs.readDir fs.pathToString fuel).ops.flatMap (opWrites fs)) := by
    rw [k1]
    unfold padOf
    rw [hl, if_neg (by omega)]
    rfl
  refine ⟨hl, ?_, s', hs, himg, k2⟩
  rw [← himg]
  exact pack_success hb hf hs

/-- C89: a buffer of zeros holds the image that packing into an empty file produces, followed by zeros. -/
theorem C89_zeroed_buffer {fs : SourceFs} {fuel n : Nat} {b' : Bytes} {log : List Progress}
    (h : FillsBuffer (boxEnv fs) fuel (List.replicate n 0) b' log) :
    ∃ img k, PacksTo fs fuel img log ∧ b' = img ++ List.replicate k 0 := by
  obtain ⟨h1, h2, h3, h4, h5⟩ := (box_create fs fuel _ _).1 h
  obtain ⟨s', hs⟩ := (file_create fs fuel []).1 ⟨h1, h2⟩
  obtain ⟨k1, k2⟩ := file_result hs
  simp only [PackState.mk.injEq] at h5
  obtain ⟨rfl, rfl⟩ := h5
  have hz : ZeroTail ([] : Bytes) (List.replicate n 0) := ⟨n, rfl⟩
  have hz' := (hz.trace h3).pad (by rw [applyTrace_in h3]; exact h4)
  rw [← k1] at hz'
  obtain ⟨k, hk⟩ := hz'
  exact ⟨s'.dev.img, k, ⟨s', hs, rfl, k2⟩, hk⟩

theorem oneFile_chunks : NoEmptyChunks (flatFs oneFile) := by
  intro p e he hd
  rw [flat_entries] at he
  obtain ⟨rfl, x, hx, rfl⟩ := he
  simp only [oneFile, List.mem_singleton] at hx
  subst hx
  decide

/-- C89 is false without the condition on the size: there is a source that packs into a file, and for every buffer that
is larger than that file by one byte, packing into it fails. -/
theorem C89_large_enough_false : ∃ (fs : SourceFs) (img : Bytes) (log : List Progress), NoEmptyChunks fs ∧
    PacksTo fs 1 img log ∧ ∀ b : Bytes, b.length = img.length + 1 → ∀ b' log', ¬ FillsBuffer (boxEnv fs) 1 b b' log' := by
  obtain ⟨s', hs⟩ := flat_packs oneFile_ok []
  refine ⟨flatFs oneFile, s'.dev.img, s'.log, oneFile_chunks, ⟨s', hs, rfl, rfl⟩, ?_⟩
  intro b hb b' log' h
  have h1 := ((C89_buffer_iff_partial oneFile_chunks 1 b).1 ⟨b', log', h⟩).2
  have h2 := (C35_length_multiple hs).2
  omega

/-- A buffer into which packing succeeds. -/
example : ∃ n b' log, FillsBuffer (boxEnv (flatFs oneFile)) 1 (List.replicate n 0) b' log ∧ 0 < n := by
  obtain ⟨s', hs⟩ := flat_packs oneFile_ok []
  have h2 := C35_length_multiple hs
  obtain ⟨b', log, h⟩ := (C89_buffer_iff_partial oneFile_chunks 1 (List.replicate s'.dev.img.length 0)).2
    ⟨⟨s'.dev.img, s'.log, ⟨s', hs, rfl, rfl⟩, by simp⟩, by rw [List.length_replicate]; exact h2.2⟩
  exact ⟨_, b', log, h, h2.1⟩

/-! ## C90: packing a directory of the host into a buffer -/

/-- C90 is false: if anywhere in a directory of the host there is a file, packing the directory into a buffer does not
succeed, whatever the buffer. -/
theorem C90_host_to_buffer_false {r : DirReader} {fs : HostFs} {root : HostPath} {p : Path} {e : FileEntry}
    (he : EntryIn (stdReadDir r fs root) p e) (hd : e.isDir = false) (fuel : Nat) (b b' : Bytes) (log : List Progress) :
    ¬ FillsBuffer (boxStdEnv r fs root) fuel b b' log := boxStd_file he hd

/-- C90 for directories without files (partial).  Missing: directories with files, for which it is false, see
`C90_host_to_buffer_false`.  If the directory contains only directories, packing it into a buffer succeeds exactly if
packing it into an empty file does, the buffer is at least as large as that file, and its size is a multiple of
64 KiB; and then the buffer holds the tree.  (`hs`: cutting what is copied into chunks loses nothing.) -/
theorem C90_directories_partial {r : DirReader} {fs : HostFs} {root : HostPath}
    (hs : ∀ b, (r.split b).flatten = b)
    (hdirs : ∀ p e, EntryIn (stdReadDir r fs root) p e → e.isDir = true) (fuel : Nat) (b : Bytes) :
    ((∃ b' log, FillsBuffer (boxStdEnv r fs root) fuel b b' log) ↔
      (∃ img log, PacksTo (stdFs r fs root) fuel img log ∧ img.length ≤ b.length) ∧ b.length % 65536 = 0) ∧
    ∀ b' log, FillsBuffer (boxStdEnv r fs root) fuel b b' log → b'.length = b.length ∧
      ∀ content, HoldsTree (fileDev b') (stdReadDir r fs root) content := by
  have hn : NoEmptyChunks (stdFs r fs root) := by
    intro p e he hd
    rw [hdirs p e he] at hd
    cases hd
  have hf : ∀ content, FaithfulTo (stdFs r fs root) content := by
    intro content p e k he hd
    rw [hdirs p e he] at hd
    cases hd
  have hback : ∀ b' log, FillsBuffer (boxStdEnv r fs root) fuel b b' log →
      FillsBuffer (boxEnv (stdFs r fs root)) fuel b b' log := by
    intro b' log h
    have hres := (create_each h).1
    unfold FillsBuffer at h ⊢
    rw [← boxStd_dirs hdirs _ hres]
    exact h
  refine ⟨?_, ?_⟩
  · rw [← C89_buffer_iff_partial hn]
    constructor
    · rintro ⟨b', log, h⟩
      exact ⟨b', log, hback _ _ h⟩
    · rintro ⟨b', log, h⟩
      refine ⟨b', log, ?_⟩
      have hres := (create_each h).1
      unfold FillsBuffer at h ⊢
      rw [boxStd_dirs hdirs _ hres]
      exact h
  · intro b' log h
    have hB := std_bounded (fs := fs) (root := root) hs
    exact ⟨(C89_buffer_image hB (hf fun _ => []) (hback _ _ h)).1,
      fun content => (C89_buffer_image hB (hf content) (hback _ _ h)).2.1⟩

/-- A directory of the host with one file, and one with a directory only. -/
def memHost : HostFs := fun p =>
  if p = [] ∨ p = [['d']] ∨ p = [['e']] ∨ p = [['e'], ['s']] then some .dir
  else if p = [['d'], ['f']] then some (.file [1]) else none

def memReader : DirReader where
  names := fun p => if p = [['d']] then [['f']] else if p = [['e']] then [['s']] else []
  dirLen := fun _ => 0
  special := fun _ => false
  split := fun b => [b]

example : EntryIn (stdReadDir memReader memHost [['d']]) [] ⟨['f'], false, 1⟩ :=
  ⟨.root, [⟨['f'], false, 1⟩], rfl, by simp⟩

theorem mem_dirs (p : Path) : DirOf (stdReadDir memReader memHost [['e']]) p → p = [] ∨ p = [['s']] := by
  intro h
  induction h with
  | root => exact .inl rfl
  | @sub q l e h1 h2 h3 h4 ih =>
    rcases ih with rfl | rfl
    · have : stdReadDir memReader memHost [['e']] [] = .ok [⟨['s'], true, 0⟩] := rfl
      rw [this] at h2
      cases h2
      rw [List.mem_singleton] at h3
      subst h3
      exact .inr rfl
    · have : stdReadDir memReader memHost [['e']] [['s']] = .ok [] := rfl
      rw [this] at h2
      cases h2
      simp at h3

/-- The hypothesis of `C90_directories_partial` holds for a directory that contains a directory. -/
theorem mem_dirs_only : ∀ p e, EntryIn (stdReadDir memReader memHost [['e']]) p e → e.isDir = true := by
  rintro p e ⟨hp, l, hl, he⟩
  rcases mem_dirs p hp with rfl | rfl
  · have : stdReadDir memReader memHost [['e']] [] = .ok [⟨['s'], true, 0⟩] := rfl
    rw [this] at hl
    cases hl
    rw [List.mem_singleton] at he
    subst he
    rfl
  · have : stdReadDir memReader memHost [['e']] [['s']] = .ok [] := rfl
    rw [this] at hl
    cases hl
    simp at he

example : EntryIn (stdReadDir memReader memHost [['e']]) [] ⟨['s'], true, 0⟩ :=
  ⟨.root, [⟨['s'], true, 0⟩], rfl, by simp⟩

end Xdvdfs.Props
