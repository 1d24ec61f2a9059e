import Verif.Proof.Repack

/-!
# Copiers
-/

namespace Xdvdfs

open Spec

theorem fileDev_parts (img : Bytes) : PartsReadable (fileDev img) := by
  intro off n b h o k hk
  have hl := (fileDev img).read_len _ _ _ h
  rw [fileDev_read] at h ⊢
  unfold fileRead at h ⊢
  by_cases hk0 : k = 0
  · subst hk0; simp [slice]
  rw [if_neg hk0]
  rw [if_neg (by omega)] at h
  split at h
  · cases h
    rw [if_pos (by omega), slice_slice _ _ _ _ _ (by omega)]
  · cases h

theorem offsetDev_parts {img : Bytes} (hs : img.length < 2 ^ 64) (base : Nat) :
    PartsReadable (offsetDev (fileDev img) base) := by
  intro off n b h o k hk
  have hl := (offsetDev (fileDev img) base).read_len _ _ _ h
  simp only [offsetDev, offsetRead] at h ⊢
  split at h
  · next hlt =>
    have hend : off + o + base < 2 ^ 64 := by
      by_cases h0 : n = 0
      · omega
      · simp only [fileDev_read, fileRead, if_neg h0] at h
        split at h
        · omega
        · cases h
    rw [if_pos hend]
    have := fileDev_parts img _ _ _ h o k hk
    rw [show off + base + o = off + o + base by omega] at this
    exact this
  · cases h

/-- The default copier on a range that can be read. -/
theorem chunkLoop_ok {dev : Dev} {off : Nat} {b : Bytes} (h : HoldsAt dev off b) :
    ∀ (fuel copied : Nat), copied ≤ b.length → b.length - copied < fuel →
      ∃ cs, chunkLoop dev off b.length fuel copied = (cs, .ok b.length) ∧ cs.flatten = b.drop copied := by
  intro fuel
  induction fuel with
  | zero => intro c _ h; omega
  | succ fuel ih =>
    intro c hc hf
    unfold chunkLoop
    by_cases hlt : c < b.length
    · rw [if_pos hlt]
      have hr := h c (min (1024 * 1024) (b.length - c)) (by omega)
      simp only [hr]
      obtain ⟨cs, h1, h2⟩ := ih (c + min (1024 * 1024) (b.length - c)) (by omega) (by omega)
      rw [h1]
      refine ⟨_, rfl, ?_⟩
      rw [List.flatten_cons, h2, slice, ← List.drop_drop, List.take_append_drop]
    · rw [if_neg hlt, if_pos (by omega)]
      refine ⟨[], by rw [show c = b.length by omega], ?_⟩
      rw [List.drop_eq_nil_of_le (by omega)]
      rfl

theorem chunkLoop_len (dev : Dev) (off size : Nat) : ∀ (fuel copied : Nat), copied ≤ size →
    (chunkLoop dev off size fuel copied).1.flatten.length ≤ size - copied := by
  intro fuel
  induction fuel with
  | zero => intro c _; simp [chunkLoop]
  | succ fuel ih =>
    intro c hc
    unfold chunkLoop
    split
    · simp only
      split
      · next b hb =>
        have h1 := dev.read_len _ _ _ hb
        have h2 := ih (c + min (1024 * 1024) (size - c)) (by omega)
        simp only [List.flatten_cons, List.length_append]
        omega
      · simp
      · simp
      · simp
    · split <;> simp

/-- The default copier delivers the bytes of the range. -/
theorem defaultCopier_ok {dev : Dev} (hp : PartsReadable dev) {off n : Nat} {b : Bytes}
    (h : dev.read off n = .ok b) :
    (defaultCopier dev off n).1.flatten = b ∧ (defaultCopier dev off n).2 = .ok n := by
  have hl := dev.read_len _ _ _ h
  obtain ⟨cs, h1, h2⟩ := chunkLoop_ok (hp _ _ _ h) (n + 1) 0 (by omega) (by omega)
  rw [hl] at h1
  simp only [defaultCopier, h1]
  exact ⟨by simpa using h2, trivial⟩

theorem defaultCopier_copies {dev : Dev} (hp : PartsReadable dev) : CopiesFrom dev (defaultCopier dev) := by
  intro off n
  refine ⟨by simpa [defaultCopier] using chunkLoop_len dev off n (n + 1) 0 (by omega), fun b k h _ => ?_⟩
  exact (defaultCopier_ok hp h).1

theorem defaultCopier_works {dev : Dev} (hp : PartsReadable dev) : CopierWorks dev (defaultCopier dev) :=
  fun _ n _ h => ⟨n, (defaultCopier_ok hp h).2⟩

/-- When the default copier succeeds on a file, the range can be read. -/
theorem chunkLoop_file {img : Bytes} {off size : Nat} : ∀ (fuel copied k : Nat), 
    (chunkLoop (fileDev img) off size fuel copied).2 = .ok k → copied < size → off + size ≤ img.length := by
  intro fuel
  induction fuel with
  | zero => intro c k h; simp [chunkLoop] at h
  | succ fuel ih =>
    intro c k h hlt
    unfold chunkLoop at h
    rw [if_pos hlt] at h
    simp only at h
    cases hr : (fileDev img).read (off + c) (min (1024 * 1024) (size - c)) with
    | ok b =>
      rw [hr] at h
      simp only at h
      by_cases hlast : c + min (1024 * 1024) (size - c) < size
      · exact ih _ _ h hlast
      · rw [fileDev_read, fileRead, if_neg (by omega)] at hr
        split at hr
        · omega
        · cases hr
    | err e => rw [hr] at h; cases h
    | panic => rw [hr] at h; cases h
    | hang => rw [hr] at h; cases h

theorem defaultCopier_file {img : Bytes} {off n k : Nat} (h : (defaultCopier (fileDev img) off n).2 = .ok k) :
    (fileDev img).read off n = .ok (slice img off n) := by
  rw [fileDev_read, fileRead]
  by_cases h0 : n = 0
  · subst h0; simp [slice]
  · rw [if_neg h0, if_pos (chunkLoop_file _ _ _ h (by omega))]

theorem stdIoCopier_copies {img : Bytes} {split : Bytes → List Bytes} (hs : ∀ b, (split b).flatten = b) :
    CopiesFrom (fileDev img) (stdIoCopier img 0 split) := by
  intro off n
  refine ⟨by simp [stdIoCopier, hs, slice]; omega, fun b k h _ => ?_⟩
  simp only [stdIoCopier, hs, Nat.zero_add]
  rw [fileDev_read, fileRead] at h
  split at h
  · next h0 => cases h; simp [slice, h0]
  · split at h
    · cases h; rfl
    · cases h

theorem stdIoCopier_copies_offset {img : Bytes} {base : Nat} {split : Bytes → List Bytes}
    (hs : ∀ b, (split b).flatten = b) :
    CopiesFrom (offsetDev (fileDev img) base) (stdIoCopier img base split) := by
  intro off n
  refine ⟨by simp [stdIoCopier, hs, slice]; omega, fun b k h _ => ?_⟩
  simp only [stdIoCopier, hs]
  simp only [offsetDev, offsetRead] at h
  split at h
  · rw [fileDev_read, fileRead] at h
    split at h
    · next h0 => cases h; simp [slice, h0]
    · split at h
      · cases h; rw [Nat.add_comm]
      · cases h
  · cases h

theorem stdIoCopier_works (dev : Dev) (img : Bytes) (base : Nat) (split : Bytes → List Bytes) :
    CopierWorks dev (stdIoCopier img base split) := fun _ _ _ _ => ⟨_, rfl⟩

end Xdvdfs
