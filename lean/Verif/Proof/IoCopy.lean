import Verif.Spec.IoCopy
import Verif.Proof.Copier
import Verif.Proof.ReadErrors

/-!
# The loop of `std::io::copy`
-/

namespace Xdvdfs

open Spec

theorem slice_append (l : Bytes) (p a b : Nat) : slice l p a ++ slice l (p + a) b = slice l p (a + b) := by
  unfold slice
  rw [← List.drop_drop, ← List.take_add]

theorem ioCopyLoop_file {content : Bytes} {read : ReadAt} (h : ReadsFile content read) {buf : Nat} (hb : 0 < buf) :
    ∀ (fuel pos left copied : Nat), left < fuel →
      (ioCopyLoop read buf fuel pos left copied).1.flatten = slice content pos left ∧
      (ioCopyLoop read buf fuel pos left copied).2 = .ok (copied + (slice content pos left).length) := by
  intro fuel
  induction fuel with
  | zero => intro pos left copied hf; omega
  | succ fuel ih =>
    intro pos left copied hf
    unfold ioCopyLoop
    by_cases h0 : left = 0
    · subst h0
      simp [slice]
    · rw [if_neg h0]
      obtain ⟨k, k1, k2, k3⟩ := h pos (min left buf) (by omega)
      rw [k2]
      cases hs : slice content pos k with
      | nil =>
        have hend : content.length ≤ pos := by
          apply Classical.byContradiction
          intro hc
          have := congrArg List.length hs
          simp only [slice, List.length_take, List.length_drop, List.length_nil] at this
          have := k3 (by omega)
          omega
        have : slice content pos left = [] := by
          unfold slice
          rw [List.drop_eq_nil_of_le hend, List.take_nil]
        simp [this]
      | cons x xs =>
        have hlen : (x :: xs).length ≤ k := by
          rw [← hs]; simp only [slice, List.length_take]; omega
        have hpos : 0 < (x :: xs).length := by simp
        simp only
        obtain ⟨i1, i2⟩ := ih (pos + (x :: xs).length) (left - (x :: xs).length) (copied + (x :: xs).length) (by omega)
        have hx : x :: xs = slice content pos (x :: xs).length := by
          conv => lhs; rw [← hs]
          have hl : (x :: xs).length = (slice content pos k).length := by rw [hs]
          rw [hl]
          unfold slice
          rw [List.length_take, List.take_eq_take_iff]
          omega
        have hsum : slice content pos left =
            (x :: xs) ++ slice content (pos + (x :: xs).length) (left - (x :: xs).length) := by
          conv => rhs; arg 1; rw [hx]
          rw [slice_append]
          congr 1
          omega
        refine ⟨?_, ?_⟩
        · rw [List.flatten_cons, i1, hsum]
        · rw [i2, hsum, List.length_append]
          congr 1
          omega

theorem ioCopier_file {content : Bytes} {read : ReadAt} (h : ReadsFile content read) {buf : Nat} (hb : 0 < buf)
    (base off n : Nat) : (ioCopier read buf base off n).1.flatten = slice content (base + off) n ∧
      (ioCopier read buf base off n).2 = .ok (slice content (base + off) n).length := by
  obtain ⟨h1, h2⟩ := ioCopyLoop_file h hb (n + 1) (base + off) n 0 (by omega)
  exact ⟨h1, by rw [ioCopier, h2, Nat.zero_add]⟩

theorem ioCopier_copies {img : Bytes} {read : ReadAt} (h : ReadsFile img read) {buf : Nat} (hb : 0 < buf) (base : Nat) :
    CopiesFrom (offsetDev (fileDev img) base) (ioCopier read buf base) := by
  intro off n
  obtain ⟨h1, h2⟩ := ioCopier_file h hb base off n
  rw [h1]
  refine ⟨by simp [slice]; omega, fun b k hr _ => ?_⟩
  simp only [offsetDev, offsetRead] at hr
  split at hr
  · rw [fileDev_read, fileRead] at hr
    split at hr
    · next h0 => cases hr; simp [slice, h0]
    · split at hr
      · cases hr; rw [Nat.add_comm]
      · cases hr
  · cases hr

theorem ioCopier_works {img : Bytes} {read : ReadAt} (h : ReadsFile img read) {buf : Nat} (hb : 0 < buf) (base : Nat)
    (dev : Dev) : CopierWorks dev (ioCopier read buf base) := by
  intro off n _ _
  exact ⟨_, (ioCopier_file h hb base off n).2⟩

theorem fails_ioCopyLoop {bad good : ReadAt} (h : ∀ pos n, SameOrError (bad pos n) (good pos n)) (buf : Nat) :
    ∀ fuel pos left copied, ioCopyLoop bad buf fuel pos left copied = ioCopyLoop good buf fuel pos left copied ∨
      ∃ e, (ioCopyLoop bad buf fuel pos left copied).2 = .err e := by
  intro fuel
  induction fuel with
  | zero => intro pos left copied; exact .inl rfl
  | succ fuel ih =>
    intro pos left copied
    unfold ioCopyLoop
    by_cases h0 : left = 0
    · rw [if_pos h0, if_pos h0]; exact .inl rfl
    · rw [if_neg h0, if_neg h0]
      rcases h pos (min left buf) with e | ⟨e, he⟩
      · rw [e]
        cases good pos (min left buf) with
        | ok b =>
          cases b with
          | nil => exact .inl rfl
          | cons x xs =>
            simp only
            rcases ih (pos + (x :: xs).length) (left - (x :: xs).length) (copied + (x :: xs).length) with e | ⟨e, he⟩
            · rw [e]; exact .inl rfl
            · exact .inr ⟨e, he⟩
        | err e => exact .inl rfl
        | panic => exact .inl rfl
        | hang => exact .inl rfl
      · rw [he]
        exact .inr ⟨e, rfl⟩

theorem fails_ioCopier {bad good : ReadAt} (h : ∀ pos n, SameOrError (bad pos n) (good pos n)) (buf base : Nat) :
    CopierFails (ioCopier bad buf base) (ioCopier good buf base) :=
  fun off n => fails_ioCopyLoop h buf (n + 1) (base + off) n 0

end Xdvdfs
