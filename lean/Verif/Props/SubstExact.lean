import Verif.Props.Remap

/-!
# C68, for numbers written in any way
-/

namespace Xdvdfs.Spec

/-- The pattern with every brace whose number is written without leading zeros replaced by the text captured under its
number, or nothing.  Other braces (`{}`, `{01}`) are left as they are. -/
def expandPlain (caps : Captures) (ps : List Piece) : Str :=
  ps.flatMap (fun x => match x with
    | .lit c => [c]
    | .sub body => if body = Nat.toDigits 10 (decimal body) then (caps (decimal body)).getD [] else '{' :: (body ++ ['}']))

end Xdvdfs.Spec

namespace Xdvdfs.Props

open Xdvdfs Spec

theorem SubstExact.substAll_plain {caps : Captures} (hcaps : BraceFree caps) {ps : List Piece} (h : WellFormedPattern ps) :
    substAll caps (numbersIn ps) (render ps) = expandPlain caps ps := by
  rw [substAll_render caps hcaps _ _ h]
  have key : ∀ (is : List Nat) (qs : List Piece), (∀ x ∈ qs, match x with
      | .lit _ => True
      | .sub body => decimal body ∈ is) → render (qs.flatMap (replacePieces caps is)) = expandPlain caps qs := by
    intro is qs
    induction qs with
    | nil => intro _; rfl
    | cons x qs ih =>
      intro hin
      rw [List.flatMap_cons, render_append, ih (fun y hy => hin y (by simp [hy]))]
      have hx := hin x (by simp)
      cases x with
      | lit c => simp [replacePieces, render, expandPlain, Piece.text]
      | sub body =>
        simp only [replacePieces, expandPlain, List.flatMap_cons]
        congr 1
        by_cases hb : body = Nat.toDigits 10 (decimal body)
        · rw [if_pos hb, if_pos ⟨_, hx, hb⟩, render_lits]
        · rw [if_neg hb, if_neg]
          · simp [render, Piece.text]
          · rintro ⟨i, _, hi⟩
            exact hb (by rw [hi, decimal_toDigits])
  refine key _ ps ?_
  intro x hx
  cases x with
  | lit c => trivial
  | sub body => exact List.mem_filterMap.2 ⟨_, hx, rfl⟩

/-- C68, for every pattern that is accepted and has no brace inside braces, and captured texts without opening brace.  The
image path is given by the pattern with every brace replaced by the text captured under its number if this is written
without leading zeros, and left as it is otherwise.  If all numbers are written without leading zeros, this is what C68
asks for. -/
theorem C68_any_numbers {ps : List Piece} {caps : Captures} {rest : Path} (hp : WellFormedPattern ps)
    (hf : NumbersFit (render ps)) (hc : BraceFree caps) (hr : PlainPath rest) :
    rewriteTarget (render ps) caps rest =
      .ok (components ((expandPlain caps ps).dropWhile (fun c => c == '.')) ++ rest) ∧
    ((∀ body, .sub body ∈ ps → body = Nat.toDigits 10 (decimal body)) → expandPlain caps ps = expand caps ps) := by
  constructor
  · unfold rewriteTarget
    rw [find_ok hp hf, Res.ok_bind]
    simp only
    rw [SubstExact.substAll_plain hc hp, ← trimStart_eq_dropWhile, Res.pure_eq, target_components hr]
  · intro h
    clear hp hf
    induction ps with
    | nil => rfl
    | cons x ps ih =>
      have ih := ih (fun b hb => h b (by simp [hb]))
      simp only [expandPlain, expand, List.flatMap_cons] at ih ⊢
      rw [ih]
      congr 1
      cases x with
      | lit c => rfl
      | sub body => exact if_pos (h body (by simp))

/-- The hypotheses of `C68_any_numbers` hold for `{1}{01}{}`, with `x` captured under 1: the first is replaced. -/
example : rewriteTarget ['{', '1', '}', '{', '0', '1', '}', '{', '}'] (fun i => if i = 1 then some ['x'] else none) [] =
    .ok [['x', '{', '0', '1', '}', '{', '}']] := by
  refine (C68_any_numbers (ps := [.sub ['1'], .sub ['0', '1'], .sub []]) (rest := []) ?_ ?_ ?_ ?_).1
  · intro x hx
    simp only [List.mem_cons, List.not_mem_nil, or_false] at hx
    rcases hx with rfl | rfl | rfl <;> (intro c hc; simp at hc) <;> (try rcases hc with rfl | rfl) <;> first | rfl | (subst hc; rfl)
  · intro a ds b hd he
    have hn : ds.length ≤ 9 := by
      have := congrArg List.length he
      simp [render, Piece.text] at this
      omega
    have hb : ∀ (l : Str) (m : Nat), AllDigits l →
        l.foldl (fun n c => 10 * n + (c.toNat - '0'.toNat)) m + 1 ≤ (m + 1) * 10 ^ l.length := by
      intro l
      induction l with
      | nil => intro m _; simp
      | cons c l ih =>
        intro m hl
        have hc := hl c (by simp)
        have h9 : c.toNat - '0'.toNat ≤ 9 := by
          have : c.toNat ≤ 57 := by
            simp [Char.isDigit] at hc
            exact hc.2
          have : '0'.toNat = 48 := rfl
          omega
        refine Nat.le_trans (ih _ (fun x hx => hl x (by simp [hx]))) ?_
        rw [List.length_cons, Nat.pow_succ, Nat.mul_comm (10 ^ l.length), ← Nat.mul_assoc]
        refine Nat.mul_le_mul_right _ ?_
        simp only
        omega
    have := hb ds 0 hd
    have h10 : 10 ^ ds.length ≤ 10 ^ 9 := Nat.pow_le_pow_right (by omega) hn
    unfold decimal
    omega
  · intro i s h
    simp only at h
    split at h
    · cases h; decide
    · cases h
  · intro s hs; simp at hs

end Xdvdfs.Props
