import Verif.Proof.RemapPattern
import Verif.Spec.RemapLoose

/-! # Lemmas for rewrite patterns as they are read -/

namespace Xdvdfs.RemapExact

open Xdvdfs Spec

/-- The number after reading `body`, with `mi` read before. -/
def val (mi : Nat) (body : Str) : Nat :=
  body.foldl (fun n c => if c.isDigit then n * 10 + (c.toNat - '0'.toNat) else n) mi

theorem val_digitsIn : ∀ (body : Str) (mi : Nat), val mi body =
    (body.filter Char.isDigit).foldl (fun n c => 10 * n + (c.toNat - '0'.toNat)) mi := by
  intro body
  induction body with
  | nil => intro mi; rfl
  | cons c cs ih =>
    intro mi
    have e : val mi (c :: cs) = val (if c.isDigit then mi * 10 + (c.toNat - '0'.toNat) else mi) cs := rfl
    rw [e, ih, List.filter_cons]
    cases hc : c.isDigit
    · simp
    · simp [Nat.mul_comm]

theorem val_eq (body : Str) : val 0 body = digitsIn body := by rw [val_digitsIn]; rfl

theorem le_val : ∀ (body : Str) (mi : Nat), mi ≤ val mi body := by
  intro body
  induction body with
  | nil => intro mi; exact Nat.le_refl _
  | cons c cs ih =>
    intro mi
    have e : val mi (c :: cs) = val (if c.isDigit then mi * 10 + (c.toNat - '0'.toNat) else mi) cs := rfl
    rw [e]
    refine Nat.le_trans ?_ (ih _)
    split <;> omega

theorem loop_body {len : Nat} {acc : List Nat} {rest : Str} : ∀ {body : Str} {idx mi : Nat}, LooseBody body →
    braceLoop len (body ++ rest) idx mi true acc =
      if val mi body < 2 ^ 64 ∨ body.filter Char.isDigit = [] then
        braceLoop len rest (idx + body.length) (val mi body) true acc
      else .panic := by
  intro body
  induction body with
  | nil => intro idx mi _; simp [val]
  | cons c cs ih =>
    intro idx mi hb
    have hcs : LooseBody cs := fun x hx => hb x (by simp [hx])
    have e : val mi (c :: cs) = val (if c.isDigit then mi * 10 + (c.toNat - '0'.toNat) else mi) cs := rfl
    rcases hb c (by simp) with hc | hc
    · rw [List.cons_append, braceLoop, if_neg (digit_ne hc (by decide)), toDigit10_digit hc]
      simp only [Bool.not_true, Bool.false_eq_true, if_false]
      rw [if_neg (digit_ne hc (by decide)), e]
      simp only [hc, if_true, List.filter_cons, reduceCtorEq, or_false]
      have hle := le_val cs (mi * 10 + (c.toNat - '0'.toNat))
      by_cases hbig : 2 ^ 64 ≤ mi * 10 + (c.toNat - '0'.toNat)
      · rw [if_pos hbig, if_neg (by omega)]
      · rw [if_neg hbig, ih hcs]
        have hlen : idx + (c :: cs).length = idx + 1 + cs.length := by simp; omega
        rw [hlen]
        by_cases hv : val (mi * 10 + (c.toNat - '0'.toNat)) cs < 2 ^ 64
        · rw [if_pos (.inl hv), if_pos hv]
        · rw [if_neg hv, if_neg]
          rintro (h | h)
          · exact hv h
          · apply hv
            rw [val_digitsIn, h]
            simp only [List.foldl_nil]
            omega
    · subst hc
      have hd : ('{' : Char).isDigit = false := by decide
      rw [List.cons_append, braceLoop, if_pos rfl, ih hcs, e]
      have hlen : idx + ('{' :: cs).length = idx + 1 + cs.length := by simp; omega
      simp only [hd, Bool.false_eq_true, if_false, List.filter_cons, hlen]

theorem loop_body_ok {len : Nat} {acc : List Nat} {rest body : Str} {idx : Nat} (hb : LooseBody body)
    (hv : digitsIn body < 2 ^ 64) :
    braceLoop len (body ++ rest) idx 0 true acc = braceLoop len rest (idx + body.length) (digitsIn body) true acc := by
  rw [loop_body hb, val_eq, if_pos (.inl hv)]

theorem loop_body_big {len : Nat} {acc : List Nat} {rest body : Str} {idx : Nat} (hb : LooseBody body)
    (hv : 2 ^ 64 ≤ digitsIn body) :
    braceLoop len (body ++ rest) idx 0 true acc = .panic := by
  rw [loop_body hb, val_eq, if_neg]
  rintro (h | h)
  · omega
  · unfold digitsIn at hv; rw [h] at hv; simp [decimal] at hv

theorem loose_tail {x : Piece} {ps : List Piece} (h : LoosePattern (x :: ps)) : LoosePattern ps :=
  fun y hy => h y (by simp [hy])

theorem loop_pieces {len : Nat} {rest : Str} : ∀ {ps : List Piece} {idx : Nat} {acc : List Nat}, LoosePattern ps →
    Below64 (looseNumbers ps) →
    braceLoop len (render ps ++ rest) idx 0 false acc =
      braceLoop len rest (idx + (render ps).length) 0 false (acc ++ looseNumbers ps) := by
  intro ps
  induction ps with
  | nil => intro idx acc _ _; simp [render, looseNumbers]
  | cons x ps ih =>
    intro idx acc hp hn
    have hx := hp x (by simp)
    cases x with
    | lit c =>
      have hx : c ≠ '{' := hx
      have e1 : render (.lit c :: ps) = c :: render ps := rfl
      have e2 : looseNumbers (.lit c :: ps) = looseNumbers ps := rfl
      rw [e1, e2, List.cons_append, braceLoop, if_neg hx]
      simp only [Bool.not_false, if_true]
      rw [ih (loose_tail hp) hn]
      congr 1
      simp; omega
    | sub body =>
      have hx : LooseBody body := hx
      have e1 : render (.sub body :: ps) = '{' :: (body ++ '}' :: render ps) := by simp [render, Piece.text]
      have e2 : looseNumbers (.sub body :: ps) = digitsIn body :: looseNumbers ps := rfl
      rw [e2] at hn
      rw [e1, e2, List.cons_append, braceLoop, if_pos rfl, List.append_assoc,
        loop_body_ok hx (hn _ (by simp)), List.cons_append, braceLoop, if_neg (by decide)]
      simp only [Bool.not_true, Bool.false_eq_true, if_false, if_true]
      rw [ih (loose_tail hp) (fun n hn' => hn n (by simp [hn']))]
      rw [List.append_assoc]
      congr 1
      simp; omega

theorem span_loose : ∀ (s : Str), ∃ body rest, s = body ++ rest ∧ LooseBody body ∧
    ∀ c r, rest = c :: r → c.isDigit = false ∧ c ≠ '{' := by
  intro s
  induction s with
  | nil => exact ⟨[], [], rfl, by simp [LooseBody], by simp⟩
  | cons c cs ih =>
    by_cases hc : c.isDigit = true ∨ c = '{'
    · obtain ⟨body, rest, h1, h2, h3⟩ := ih
      refine ⟨c :: body, rest, by rw [h1]; rfl, ?_, h3⟩
      intro x hx
      rcases List.mem_cons.1 hx with rfl | hx
      · exact hc
      · exact h2 x hx
    · refine ⟨[], c :: cs, rfl, by simp [LooseBody], ?_⟩
      intro d r he
      cases he
      have h1 : ¬ c.isDigit = true := fun h => hc (.inl h)
      exact ⟨by simpa using h1, fun h => hc (.inr h)⟩

/-- One of the four forms a string can have. -/
def Form (s : Str) : Prop :=
    (∃ ps, LoosePattern ps ∧ Below64 (looseNumbers ps) ∧ s = render ps) ∨
    (∃ ps body, LoosePattern ps ∧ Below64 (looseNumbers ps) ∧ LooseBody body ∧ digitsIn body < 2 ^ 64 ∧
      s = render ps ++ '{' :: body) ∨
    (∃ ps body c rest, LoosePattern ps ∧ Below64 (looseNumbers ps) ∧ LooseBody body ∧ digitsIn body < 2 ^ 64 ∧
      c.isDigit = false ∧ c ≠ '{' ∧ c ≠ '}' ∧ s = render ps ++ '{' :: body ++ c :: rest) ∨
    (∃ ps body rest, LoosePattern ps ∧ Below64 (looseNumbers ps) ∧ LooseBody body ∧ 2 ^ 64 ≤ digitsIn body ∧
      s = render ps ++ '{' :: body ++ rest)

/-- Every string has one of the four forms. -/
theorem loose_cases : ∀ (n : Nat) (s : Str), s.length ≤ n → Form s := by
  intro n
  induction n with
  | zero =>
    intro s hs
    have : s = [] := List.eq_nil_of_length_eq_zero (by omega)
    exact .inl ⟨[], by simp [LoosePattern], by simp [Below64, looseNumbers], by simp [this, render]⟩
  | succ n ih =>
    intro s hs
    have nilP : LoosePattern [] := by simp [LoosePattern]
    have nilN : Below64 (looseNumbers []) := by simp [Below64, looseNumbers]
    have step : ∀ (x : Piece) (cs : Str), s = x.text ++ cs → LoosePattern [x] → Below64 (looseNumbers [x]) →
        cs.length ≤ n → Form s := by
      intro x cs he hx hb hl
      have hc : ∀ ps, LoosePattern ps → LoosePattern (x :: ps) := by
        intro ps h y hy
        rcases List.mem_cons.1 hy with rfl | hy
        · exact hx y (by simp)
        · exact h y hy
      have hn : ∀ ps, Below64 (looseNumbers ps) → Below64 (looseNumbers (x :: ps)) := by
        intro ps h m hm
        have e : looseNumbers (x :: ps) = looseNumbers [x] ++ looseNumbers ps := by
          unfold looseNumbers
          rw [← List.filterMap_append]
          rfl
        rw [e] at hm
        rcases List.mem_append.1 hm with hm | hm
        · exact hb m hm
        · exact h m hm
      have hr : ∀ ps, render (x :: ps) = x.text ++ render ps := fun ps => by simp [render]
      rcases ih cs hl with ⟨ps, h1, h2, h3⟩ | ⟨ps, body, h1, h2, h3, h4, h5⟩ |
        ⟨ps, body, c, rest, h1, h2, h3, h4, h5, h6, h7, h8⟩ | ⟨ps, body, rest, h1, h2, h3, h4, h5⟩
      · exact Or.inl ⟨x :: ps, hc ps h1, hn ps h2, by rw [he, h3, hr]⟩
      · exact Or.inr (.inl ⟨x :: ps, body, hc ps h1, hn ps h2, h3, h4, by rw [he, h5, hr, List.append_assoc]⟩)
      · exact Or.inr (.inr (.inl ⟨x :: ps, body, c, rest, hc ps h1, hn ps h2, h3, h4, h5, h6, h7, by
          rw [he, h8, hr]; simp only [List.append_assoc]⟩))
      · exact Or.inr (.inr (.inr ⟨x :: ps, body, rest, hc ps h1, hn ps h2, h3, h4, by
          rw [he, h5, hr]; simp only [List.append_assoc]⟩))
    cases s with
    | nil => exact .inl ⟨[], nilP, nilN, rfl⟩
    | cons c cs =>
      by_cases hc : c = '{'
      · subst hc
        obtain ⟨body, rest, h1, h2, h3⟩ := span_loose cs
        by_cases hbig : digitsIn body < 2 ^ 64
        · cases rest with
          | nil => exact .inr (.inl ⟨[], body, nilP, nilN, h2, hbig, by simp [render, h1]⟩)
          | cons d r =>
            by_cases hd : d = '}'
            · subst hd
              refine step (.sub body) r (by simp [Piece.text, h1]) ?_ ?_ ?_
              · intro x hx; rw [List.mem_singleton] at hx; subst hx; exact h2
              · intro m hm
                have : m = digitsIn body := by simpa [looseNumbers] using hm
                rw [this]; exact hbig
              · have := congrArg List.length h1
                simp at this hs
                omega
            · obtain ⟨k1, k2⟩ := h3 d r rfl
              exact .inr (.inr (.inl ⟨[], body, d, r, nilP, nilN, h2, hbig, k1, k2, hd, by simp [render, h1]⟩))
        · exact .inr (.inr (.inr ⟨[], body, rest, nilP, nilN, h2, by omega, by simp [render, h1]⟩))
      · refine step (.lit c) cs rfl ?_ ?_ ?_
        · intro x hx; rw [List.mem_singleton] at hx; subst hx; exact hc
        · intro m hm; simp [looseNumbers] at hm
        · simp at hs; omega

theorem find_whole {ps : List Piece} (h1 : LoosePattern ps) (h2 : Below64 (looseNumbers ps)) :
    findMatchIndices (render ps) = .ok (.ok (looseNumbers ps)) := by
  unfold findMatchIndices
  have := loop_pieces (len := ((render ps).map Char.utf8Size).sum) (rest := []) (idx := 0) (acc := []) h1 h2
  rw [List.append_nil] at this
  rw [this]
  simp [braceLoop]

theorem find_left {ps : List Piece} {body : Str} (h1 : LoosePattern ps) (h2 : Below64 (looseNumbers ps))
    (h3 : LooseBody body) (h4 : digitsIn body < 2 ^ 64) :
    findMatchIndices (render ps ++ '{' :: body) =
      .ok (.error (((render ps ++ '{' :: body).map Char.utf8Size).sum - 1, .unclosed)) := by
  unfold findMatchIndices
  rw [loop_pieces h1 h2, braceLoop, if_pos rfl]
  have := loop_body_ok (len := ((render ps ++ '{' :: body).map Char.utf8Size).sum) (acc := [] ++ looseNumbers ps)
    (rest := []) (idx := 0 + (render ps).length + 1) h3 h4
  rw [List.append_nil] at this
  rw [this]
  rfl

theorem find_bad {ps : List Piece} {body rest : Str} {c : Char} (h1 : LoosePattern ps) (h2 : Below64 (looseNumbers ps))
    (h3 : LooseBody body) (h4 : digitsIn body < 2 ^ 64) (h5 : c.isDigit = false) (h6 : c ≠ '{') (h7 : c ≠ '}') :
    findMatchIndices (render ps ++ '{' :: body ++ c :: rest) =
      .ok (.error ((render ps ++ '{' :: body).length, .nonDigit)) := by
  unfold findMatchIndices
  rw [List.append_assoc, loop_pieces h1 h2, List.cons_append, braceLoop, if_pos rfl, loop_body_ok h3 h4, braceLoop, if_neg h6,
    toDigit10_none h5]
  simp only [Bool.not_true, Bool.false_eq_true, if_false]
  rw [if_neg h7]
  simp only [List.length_append, List.length_cons]
  have e : 0 + (render ps).length + 1 + body.length = (render ps).length + (body.length + 1) := by omega
  rw [e]

theorem find_big {ps : List Piece} {body rest : Str} (h1 : LoosePattern ps) (h2 : Below64 (looseNumbers ps))
    (h3 : LooseBody body) (h4 : 2 ^ 64 ≤ digitsIn body) :
    findMatchIndices (render ps ++ '{' :: body ++ rest) = .panic := by
  unfold findMatchIndices
  rw [List.append_assoc, loop_pieces h1 h2, List.cons_append, braceLoop, if_pos rfl, loop_body_big h3 h4]

end Xdvdfs.RemapExact
