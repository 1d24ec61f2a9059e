import Verif.Model.Layout
import Verif.Model.Util
import Verif.Spec.Names

/-! Helper lemmas about name encoding and comparison. -/

namespace Xdvdfs

theorem forall_uint8 {P : UInt8 → Prop} (h : ∀ n : Fin 256, P (UInt8.ofNat n.val)) (b : UInt8) :
    P b := by
  have := h ⟨b.toNat, b.toNat_lt⟩
  simpa using this

theorem decodeByte_eq_spec (b : UInt8) : decodeByte b = Spec.cp1252Char b.toNat := by
  revert b; apply forall_uint8; decide +kernel

theorem encodeChar_decodeByte (b : UInt8) : encodeChar (decodeByte b) = some b := by
  revert b; apply forall_uint8; decide +kernel

theorem decode_high (i : Fin 32) : ∀ n, cp1252High[i.val]? = some n →
    (decodeByte (UInt8.ofNat (0x80 + i.val))).toNat = n := by
  revert i; decide +kernel

theorem decode_low (i : Fin 256) (h : i.val < 0x80 ∨ (0xA0 ≤ i.val)) :
    (decodeByte (UInt8.ofNat i.val)).toNat = i.val := by
  revert i; decide +kernel

theorem char_ext_toNat {a b : Char} (h : a.toNat = b.toNat) : a = b := by
  apply Char.ext; apply UInt32.toNat_inj.mp; exact h

theorem decodeByte_encodeChar {c : Char} {b : UInt8} (h : encodeChar c = some b) :
    decodeByte b = c := by
  unfold encodeChar at h
  split at h
  · rename_i hc
    cases h
    apply char_ext_toNat
    exact decode_low ⟨c.toNat, by omega⟩ (by simp; omega)
  · rw [Option.map_eq_some_iff] at h
    obtain ⟨i, hi, rfl⟩ := h
    have h1 : cp1252High[i]? = some c.toNat := by
      rw [List.idxOf?, List.findIdx?_eq_some_iff_getElem] at hi
      obtain ⟨hl, hp, _⟩ := hi
      rw [List.getElem?_eq_getElem hl]
      simp at hp; rw [hp]
    have hl : i < 32 := by
      rcases Nat.lt_or_ge i 32 with h | h
      · exact h
      · rw [List.getElem?_eq_none (by simpa [cp1252High] using h)] at h1; cases h1
    exact char_ext_toNat (decode_high ⟨i, hl⟩ _ h1)

theorem encodeChars_decode {s : Str} {bs : Bytes} (h : encodeChars s = some bs) :
    decodeName bs = s := by
  induction s generalizing bs with
  | nil => simp [encodeChars] at h; subst h; rfl
  | cons c cs ih =>
    simp only [encodeChars] at h
    split at h
    · rename_i b bs' h1 h2
      cases h
      simp [decodeName, decodeByte_encodeChar h1]
      exact ih h2
    · cases h

theorem encodeChars_decodeName (bs : Bytes) : encodeChars (decodeName bs) = some bs := by
  induction bs with
  | nil => rfl
  | cons b bs ih =>
    have : decodeName (b :: bs) = decodeByte b :: decodeName bs := rfl
    simp [this, encodeChars, encodeChar_decodeByte, ih]

theorem encodeChars_length {s : Str} {bs : Bytes} (h : encodeChars s = some bs) :
    bs.length = s.length := by
  rw [← encodeChars_decode h]; simp [decodeName]

theorem encodeChars_none {s : Str} (h : encodeChars s = none) :
    ∃ c ∈ s, encodeChar c = none := by
  induction s with
  | nil => simp [encodeChars] at h
  | cons c cs ih =>
    simp only [encodeChars] at h
    split at h
    · cases h
    · rename_i hn
      cases hc : encodeChar c with
      | none => exact ⟨c, by simp, hc⟩
      | some b =>
        cases hcs : encodeChars cs with
        | none => obtain ⟨d, hd, hd'⟩ := ih hcs; exact ⟨d, by simp [hd], hd'⟩
        | some bs => exact absurd hcs (hn _ _ hc)

theorem encodeName_ok {s : Str} {bs : Bytes} (h : encodeName s = .ok bs) :
    encodeChars s = some bs ∧ bs.length ≤ 255 := by
  unfold encodeName at h
  split at h
  · rename_i b hb
    split at h
    · cases h; exact ⟨hb, by assumption⟩
    · cases h
  · cases h

theorem encodeName_decode {s : Str} {bs : Bytes} (h : encodeName s = .ok bs) :
    decodeName bs = s := encodeChars_decode (encodeName_ok h).1

/-! ## Comparison -/

theorem upperNat_eq (c : Char) : upperNat c.toNat = (Spec.asciiUpper c).toNat := by
  have e1 : ('a' ≤ c) ↔ 97 ≤ c.toNat := by
    show (97 : UInt32) ≤ c.val ↔ _
    rw [UInt32.le_iff_toNat_le]; rfl
  have e2 : (c ≤ 'z') ↔ c.toNat ≤ 122 := by
    show c.val ≤ (122 : UInt32) ↔ _
    rw [UInt32.le_iff_toNat_le]; rfl
  unfold upperNat Spec.asciiUpper
  by_cases h : 97 ≤ c.toNat ∧ c.toNat ≤ 122
  · rw [if_pos h, if_pos (by rw [e1, e2]; exact h)]
    have hv : (c.toNat - 32).isValidChar := by left; omega
    rw [Char.ofNat, dif_pos hv]; rfl
  · rw [if_neg h, if_neg (by rw [e1, e2]; exact h)]

theorem cmp_eq_iff (a b : Str) : cmpIgnoreCase a b = .eq ↔ Spec.SameName a b := by
  induction a generalizing b with
  | nil => cases b <;> simp [cmpIgnoreCase, Spec.SameName, Spec.upper]
  | cons x xs ih =>
    cases b with
    | nil => simp [cmpIgnoreCase, Spec.SameName, Spec.upper]
    | cons y ys =>
      simp only [cmpIgnoreCase, Spec.SameName, Spec.upper, List.map_cons, List.cons.injEq]
      have ih' := ih ys
      simp only [Spec.SameName, Spec.upper] at ih'
      rw [upperNat_eq, upperNat_eq]
      cases h : compare (Spec.asciiUpper x).toNat (Spec.asciiUpper y).toNat with
      | lt =>
        have := Nat.compare_eq_lt.mp h
        simp; intro he; rw [he] at this; omega
      | gt =>
        have := Nat.compare_eq_gt.mp h
        simp; intro he; rw [he] at this; omega
      | eq =>
        have := char_ext_toNat (Nat.compare_eq_eq.mp h)
        simp [ih', this]

theorem cmp_swap (a b : Str) : cmpIgnoreCase b a = (cmpIgnoreCase a b).swap := by
  induction a generalizing b with
  | nil => cases b <;> simp [cmpIgnoreCase]
  | cons x xs ih =>
    cases b with
    | nil => simp [cmpIgnoreCase]
    | cons y ys =>
      simp only [cmpIgnoreCase]
      rw [← Nat.compare_swap]
      cases h : compare (upperNat x.toNat) (upperNat y.toNat) <;> simp [ih]

theorem cmp_lt_iff (a b : Str) :
    cmpIgnoreCase a b = .lt ↔ Spec.LexLt (Spec.upper a) (Spec.upper b) := by
  induction a generalizing b with
  | nil =>
    cases b with
    | nil => simp [cmpIgnoreCase, Spec.LexLt, Spec.upper]
    | cons y ys => simp [cmpIgnoreCase, Spec.LexLt, Spec.upper]
  | cons x xs ih =>
    cases b with
    | nil => simp [cmpIgnoreCase, Spec.LexLt, Spec.upper]
    | cons y ys =>
      simp only [cmpIgnoreCase, Spec.upper, Spec.LexLt, List.map_cons]
      have ih' := ih ys
      simp only [Spec.LexLt, Spec.upper] at ih'
      rw [upperNat_eq, upperNat_eq]
      generalize Spec.asciiUpper x = x' at *
      generalize Spec.asciiUpper y = y' at *
      cases h : compare x'.toNat y'.toNat with
      | lt => simp; exact List.Lex.rel (Nat.compare_eq_lt.mp h)
      | gt =>
        have h' := Nat.compare_eq_gt.mp h
        simp; intro hl
        cases hl with
        | rel h => omega
        | cons h => omega
      | eq =>
        have h' := char_ext_toNat (Nat.compare_eq_eq.mp h)
        simp only [ih', h']
        constructor
        · exact List.Lex.cons
        · intro hl
          cases hl with
          | rel h => omega
          | cons h => exact h

theorem lexLt_trans {a b c : Str} (h1 : Spec.LexLt a b) (h2 : Spec.LexLt b c) : Spec.LexLt a c := by
  unfold Spec.LexLt at *
  induction h1 generalizing c with
  | nil => cases h2 <;> exact List.Lex.nil
  | rel h =>
    cases h2 with
    | rel h' => exact List.Lex.rel (Nat.lt_trans h h')
    | cons h' => exact List.Lex.rel h
  | cons h ih =>
    cases h2 with
    | rel h' => exact List.Lex.rel h'
    | cons h' => exact List.Lex.cons (ih h')

theorem cmp_trans_lt {a b c : Str} (h1 : cmpIgnoreCase a b = .lt) (h2 : cmpIgnoreCase b c = .lt) :
    cmpIgnoreCase a c = .lt := by
  rw [cmp_lt_iff] at *; exact lexLt_trans h1 h2

theorem cmp_congr_left {a a' b : Str} (h : cmpIgnoreCase a a' = .eq) :
    cmpIgnoreCase a b = cmpIgnoreCase a' b := by
  have h := (cmp_eq_iff _ _).mp h
  have e1 : cmpIgnoreCase a b = .lt ↔ cmpIgnoreCase a' b = .lt := by
    rw [cmp_lt_iff, cmp_lt_iff, show Spec.upper a = Spec.upper a' from h]
  have e2 : cmpIgnoreCase a b = .eq ↔ cmpIgnoreCase a' b = .eq := by
    rw [cmp_eq_iff, cmp_eq_iff, Spec.SameName, Spec.SameName, show Spec.upper a = Spec.upper a' from h]
  cases h1 : cmpIgnoreCase a b <;> cases h2 : cmpIgnoreCase a' b <;> simp_all

instance : Std.OrientedCmp cmpIgnoreCase where
  eq_swap := by intro a b; rw [cmp_swap a b]; simp

instance : Std.TransCmp cmpIgnoreCase where
  isLE_trans := by
    intro a b c h1 h2
    cases e1 : cmpIgnoreCase a b with
    | gt => simp [e1] at h1
    | eq => rw [cmp_congr_left e1]; exact h2
    | lt =>
      cases e2 : cmpIgnoreCase b c with
      | gt => simp [e2] at h2
      | lt => simp [cmp_trans_lt e1 e2]
      | eq =>
        have e2' : cmpIgnoreCase c b = .eq := by rw [cmp_swap b c, e2]; rfl
        have : cmpIgnoreCase c a = cmpIgnoreCase b a := cmp_congr_left e2'
        rw [cmp_swap c a, this, cmp_swap a b, e1]; rfl

end Xdvdfs
