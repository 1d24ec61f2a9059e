import Verif.Proof.RemapExact

/-!
# Rewrite patterns: what is read from any string (C51)
-/

namespace Xdvdfs.Props
open Xdvdfs Spec

/-- C51, for every string: what the code does with it.  It is accepted exactly if it consists of characters other
than an opening brace and of braces that hold digits and opening braces, with numbers below `2^64`, and it yields
the numbers that the digits in the braces make.  It is rejected for a brace left open exactly if such a pattern is
followed by an opening brace with nothing but digits and opening braces after it, and the position reported is that of
the last byte.  It is rejected for another character exactly at the first such character in braces.  It panics exactly
if a number that does not fit comes before all of that. -/
theorem C51_exactly (s : Str) :
    (∀ ns, findMatchIndices s = .ok (.ok ns) ↔
      ∃ ps, LoosePattern ps ∧ Below64 (looseNumbers ps) ∧ s = render ps ∧ ns = looseNumbers ps) ∧
    (∀ i, findMatchIndices s = .ok (.error (i, .unclosed)) ↔
      ∃ ps body, LoosePattern ps ∧ Below64 (looseNumbers ps) ∧ LooseBody body ∧ digitsIn body < 2 ^ 64 ∧
        s = render ps ++ '{' :: body ∧ i = (s.map Char.utf8Size).sum - 1) ∧
    (∀ i, findMatchIndices s = .ok (.error (i, .nonDigit)) ↔
      ∃ ps body c rest, LoosePattern ps ∧ Below64 (looseNumbers ps) ∧ LooseBody body ∧ digitsIn body < 2 ^ 64 ∧
        c.isDigit = false ∧ c ≠ '{' ∧ c ≠ '}' ∧ s = render ps ++ '{' :: body ++ c :: rest ∧
        i = (render ps ++ '{' :: body).length) ∧
    (findMatchIndices s = .panic ↔
      ∃ ps body rest, LoosePattern ps ∧ Below64 (looseNumbers ps) ∧ LooseBody body ∧ 2 ^ 64 ≤ digitsIn body ∧
        s = render ps ++ '{' :: body ++ rest) ∧
    (findMatchIndices s = .panic ∨ ∃ r, findMatchIndices s = .ok r) := by
  have hok : ∀ ns, (∃ ps, LoosePattern ps ∧ Below64 (looseNumbers ps) ∧ s = render ps ∧ ns = looseNumbers ps) →
      findMatchIndices s = .ok (.ok ns) := by
    rintro ns ⟨ps, h1, h2, rfl, rfl⟩
    exact RemapExact.find_whole h1 h2
  have hopen : ∀ i, (∃ ps body, LoosePattern ps ∧ Below64 (looseNumbers ps) ∧ LooseBody body ∧ digitsIn body < 2 ^ 64 ∧
        s = render ps ++ '{' :: body ∧ i = (s.map Char.utf8Size).sum - 1) →
      findMatchIndices s = .ok (.error (i, .unclosed)) := by
    rintro i ⟨ps, body, h1, h2, h3, h4, rfl, rfl⟩
    exact RemapExact.find_left h1 h2 h3 h4
  have hbad : ∀ i, (∃ ps body c rest, LoosePattern ps ∧ Below64 (looseNumbers ps) ∧ LooseBody body ∧
        digitsIn body < 2 ^ 64 ∧ c.isDigit = false ∧ c ≠ '{' ∧ c ≠ '}' ∧ s = render ps ++ '{' :: body ++ c :: rest ∧
        i = (render ps ++ '{' :: body).length) →
      findMatchIndices s = .ok (.error (i, .nonDigit)) := by
    rintro i ⟨ps, body, c, rest, h1, h2, h3, h4, h5, h6, h7, rfl, rfl⟩
    exact RemapExact.find_bad h1 h2 h3 h4 h5 h6 h7
  have hbig : (∃ ps body rest, LoosePattern ps ∧ Below64 (looseNumbers ps) ∧ LooseBody body ∧ 2 ^ 64 ≤ digitsIn body ∧
        s = render ps ++ '{' :: body ++ rest) → findMatchIndices s = .panic := by
    rintro ⟨ps, body, rest, h1, h2, h3, h4, rfl⟩
    exact RemapExact.find_big h1 h2 h3 h4
  rcases RemapExact.loose_cases s.length s (Nat.le_refl _) with ⟨ps, h1, h2, h3⟩ | ⟨ps, body, h1, h2, h3, h4, h5⟩ |
    ⟨ps, body, c, rest, h1, h2, h3, h4, h5, h6, h7, h8⟩ | ⟨ps, body, rest, h1, h2, h3, h4, h5⟩
  · have h := hok _ ⟨ps, h1, h2, h3, rfl⟩
    refine ⟨fun ns => ⟨fun h' => ?_, hok ns⟩, fun i => ⟨fun h' => ?_, hopen i⟩, fun i => ⟨fun h' => ?_, hbad i⟩,
      ⟨fun h' => ?_, hbig⟩, .inr ⟨_, h⟩⟩ <;> rw [h] at h' <;> cases h'
    exact ⟨ps, h1, h2, h3, rfl⟩
  · have h := hopen _ ⟨ps, body, h1, h2, h3, h4, h5, rfl⟩
    refine ⟨fun ns => ⟨fun h' => ?_, hok ns⟩, fun i => ⟨fun h' => ?_, hopen i⟩, fun i => ⟨fun h' => ?_, hbad i⟩,
      ⟨fun h' => ?_, hbig⟩, .inr ⟨_, h⟩⟩ <;> rw [h] at h' <;> cases h'
    exact ⟨ps, body, h1, h2, h3, h4, h5, rfl⟩
  · have h := hbad _ ⟨ps, body, c, rest, h1, h2, h3, h4, h5, h6, h7, h8, rfl⟩
    refine ⟨fun ns => ⟨fun h' => ?_, hok ns⟩, fun i => ⟨fun h' => ?_, hopen i⟩, fun i => ⟨fun h' => ?_, hbad i⟩,
      ⟨fun h' => ?_, hbig⟩, .inr ⟨_, h⟩⟩ <;> rw [h] at h' <;> cases h'
    exact ⟨ps, body, c, rest, h1, h2, h3, h4, h5, h6, h7, h8, rfl⟩
  · have hp : ∃ ps body rest, LoosePattern ps ∧ Below64 (looseNumbers ps) ∧ LooseBody body ∧ 2 ^ 64 ≤ digitsIn body ∧
        s = render ps ++ '{' :: body ++ rest := ⟨ps, body, rest, h1, h2, h3, h4, h5⟩
    have h := hbig hp
    refine ⟨fun ns => ⟨fun h' => ?_, hok ns⟩, fun i => ⟨fun h' => ?_, hopen i⟩, fun i => ⟨fun h' => ?_, hbad i⟩,
      ⟨fun _ => hp, hbig⟩, .inl h⟩ <;> rw [h] at h' <;> cases h'

/-- `a{1{2}}` is accepted, with the number 12; `{1{` and `{1{x` are rejected. -/
example : findMatchIndices ['a', '{', '1', '{', '2', '}', '}'] = .ok (.ok [12]) ∧
    (∃ ps, LoosePattern ps ∧ Below64 (looseNumbers ps) ∧ ['a', '{', '1', '{', '2', '}', '}'] = render ps ∧
      [12] = looseNumbers ps) ∧
    findMatchIndices ['{', '1', '{'] = .ok (.error (2, .unclosed)) ∧
    findMatchIndices ['{', '1', '{', 'x'] = .ok (.error (3, .nonDigit)) :=
  have h : findMatchIndices ['a', '{', '1', '{', '2', '}', '}'] = .ok (.ok [12]) := rfl
  ⟨h, ((C51_exactly _).1 _).1 h, rfl, rfl⟩

end Xdvdfs.Props
