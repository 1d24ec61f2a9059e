import Verif.Spec.Remap
import Verif.Proof.Host

/-!
# Proofs about rewrite patterns
-/

namespace Xdvdfs

open Spec

theorem toDigit10_digit {c : Char} (h : c.isDigit = true) : toDigit10 c = some (c.toNat - '0'.toNat) := by
  unfold toDigit10
  rw [if_pos]
  simp only [Char.isDigit, Bool.and_eq_true, decide_eq_true_eq, UInt32.le_iff_toNat_le, ge_iff_le] at h
  exact h

theorem toDigit10_none {c : Char} (h : c.isDigit = false) : toDigit10 c = none := by
  unfold toDigit10
  rw [if_neg]
  intro hh
  have : c.isDigit = true := by
    simp only [Char.isDigit, Bool.and_eq_true, decide_eq_true_eq, UInt32.le_iff_toNat_le, ge_iff_le]
    exact hh
  rw [this] at h; cases h

theorem digit_ne {c d : Char} (h : c.isDigit = true) (hd : d.isDigit = false) : c ≠ d := by
  rintro rfl; rw [h] at hd; cases hd

theorem decimal_append (a : Str) (c : Char) : decimal (a ++ [c]) = 10 * decimal a + (c.toNat - '0'.toNat) := by
  simp [decimal]

/-- Digits inside braces. -/
theorem braceLoop_digits (len : Nat) (acc : List Nat) (rest : Str) : ∀ (ds pre : Str) (idx : Nat), AllDigits ds →
    (∀ k, k ≤ ds.length → decimal (pre ++ ds.take k) < 2 ^ 64) →
    braceLoop len (ds ++ rest) idx (decimal pre) true acc =
      braceLoop len rest (idx + ds.length) (decimal (pre ++ ds)) true acc := by
  intro ds
  induction ds with
  | nil => intro pre idx _ _; simp
  | cons c cs ih =>
    intro pre idx hd hf
    have hc : c.isDigit = true := hd c (by simp)
    have h1 := hf 1 (by simp)
    simp only [List.take_succ_cons, List.take_zero, decimal_append] at h1
    rw [List.cons_append, braceLoop, if_neg (digit_ne hc (by decide)), toDigit10_digit hc]
    simp only [Bool.not_true, Bool.false_eq_true, if_false]
    rw [if_neg (digit_ne hc (by decide)), if_neg (by omega)]
    have := ih (pre ++ [c]) (idx + 1) (fun x hx => hd x (by simp [hx])) (fun k hk => by
      have := hf (k + 1) (by simp; omega)
      simpa using this)
    rw [decimal_append, Nat.mul_comm] at this
    rw [this]
    simp [Nat.add_comm, Nat.add_left_comm]

/-- All numbers of a well-formed start of a pattern. -/
theorem braceLoop_render (len : Nat) (rest : Str) : ∀ (ps : List Piece) (idx : Nat) (acc : List Nat),
    WellFormedPattern ps → NumbersFit (render ps ++ rest) →
    braceLoop len (render ps ++ rest) idx 0 false acc =
      braceLoop len rest (idx + (render ps).length) 0 false (acc ++ numbersIn ps) := by
  intro ps
  induction ps with
  | nil => intro idx acc _ _; simp [render, numbersIn]
  | cons x ps ih =>
    intro idx acc hw hf
    have hw' : WellFormedPattern ps := fun y hy => hw y (by simp [hy])
    have hx := hw x (by simp)
    have hr : render (x :: ps) = x.text ++ render ps := by simp [render]
    have hf' : NumbersFit (render ps ++ rest) := by
      intro a ds b hds he
      exact hf (x.text ++ a) ds b hds (by rw [hr, List.append_assoc, he]; simp)
    rw [hr, List.append_assoc]
    cases x with
    | lit c =>
      simp only at hx
      simp only [Piece.text, List.cons_append, List.nil_append]
      rw [braceLoop, if_neg hx]
      simp only [Bool.not_false, if_true]
      rw [ih _ _ hw' hf']
      congr 1
      simp only [List.length_cons]; omega
    | sub body =>
      simp only at hx
      simp only [Piece.text, List.cons_append, List.append_assoc, List.nil_append]
      rw [braceLoop, if_pos rfl]
      have := braceLoop_digits len acc ('}' :: (render ps ++ rest)) body [] (idx + 1) hx (fun k _ => by
        refine hf [] (body.take k) (body.drop k ++ '}' :: (render ps ++ rest)) (fun c hc => hx c (List.mem_of_mem_take hc)) ?_
        rw [hr, ← List.append_assoc, List.append_assoc [], List.cons_append, List.take_append_drop]
        simp [Piece.text])
      simp only [decimal, List.foldl_nil, List.nil_append] at this
      rw [this, braceLoop, if_neg (by decide)]
      simp only [Bool.not_true, Bool.false_eq_true, if_false, if_true]
      rw [ih _ _ hw' hf']
      have hn : numbersIn (Piece.sub body :: ps) = decimal body :: numbersIn ps := rfl
      rw [hn, List.append_assoc, List.singleton_append]
      congr 1
      simp only [List.length_cons, List.length_append]; omega

theorem find_ok {ps : List Piece} (hw : WellFormedPattern ps) (hf : NumbersFit (render ps)) :
    findMatchIndices (render ps) = .ok (.ok (numbersIn ps)) := by
  have := braceLoop_render (((render ps).map Char.utf8Size).sum) [] ps 0 [] hw (by simpa using hf)
  rw [List.append_nil] at this
  rw [findMatchIndices, this]
  simp [braceLoop]

theorem find_open {ps : List Piece} {ds : Str} (hw : WellFormedPattern ps) (hd : AllDigits ds)
    (hf : NumbersFit (render ps ++ '{' :: ds)) :
    findMatchIndices (render ps ++ '{' :: ds) = .ok (.error (((render ps ++ '{' :: ds).map Char.utf8Size).sum - 1, .unclosed)) := by
  rw [findMatchIndices, braceLoop_render _ _ ps 0 [] hw hf, braceLoop, if_pos rfl]
  generalize hlen : ((render ps ++ '{' :: ds).map Char.utf8Size).sum = len
  have := braceLoop_digits len ([] ++ numbersIn ps) [] ds [] (0 + (render ps).length + 1) hd (fun k _ => by
    refine hf (render ps) (ds.take k) (ds.drop k) (fun c hc => hd c (List.mem_of_mem_take hc)) ?_
    simp)
  simp only [decimal, List.foldl_nil, List.nil_append, List.append_nil] at this
  rw [List.nil_append, this]
  simp [braceLoop]

theorem find_nonDigit {ps : List Piece} {ds rest : Str} {c : Char} (hw : WellFormedPattern ps) (hd : AllDigits ds)
    (hc : c.isDigit = false) (h1 : c ≠ '}') (h2 : c ≠ '{') (hf : NumbersFit (render ps ++ '{' :: ds ++ c :: rest)) :
    findMatchIndices (render ps ++ '{' :: ds ++ c :: rest) =
      .ok (.error ((render ps ++ '{' :: ds).length, .nonDigit)) := by
  rw [List.append_assoc] at hf ⊢
  rw [findMatchIndices, braceLoop_render _ _ ps 0 [] hw hf, List.cons_append, braceLoop, if_pos rfl]
  generalize ((render ps ++ '{' :: (ds ++ c :: rest)).map Char.utf8Size).sum = len
  have := braceLoop_digits len ([] ++ numbersIn ps) (c :: rest) ds [] (0 + (render ps).length + 1) hd (fun k _ => by
    refine hf (render ps) (ds.take k) (ds.drop k ++ c :: rest) (fun c hc => hd c (List.mem_of_mem_take hc)) ?_
    simp only [List.append_assoc, List.cons_append]
    rw [← List.append_assoc (List.take k ds), List.take_append_drop])
  simp only [decimal, List.foldl_nil, List.nil_append] at this
  rw [List.nil_append, this, braceLoop, if_neg h2, toDigit10_none hc]
  simp only [Bool.not_true, Bool.false_eq_true, if_false]
  rw [if_neg h1]
  simp only [List.length_append, List.length_cons]
  rw [Nat.zero_add, Nat.add_assoc, Nat.add_comm 1]

/-- The first character that is not a digit. -/
theorem span_digits : ∀ (s : Str), ∃ ds rest, s = ds ++ rest ∧ AllDigits ds ∧ ∀ c r, rest = c :: r → c.isDigit = false := by
  intro s
  induction s with
  | nil => exact ⟨[], [], rfl, by simp [AllDigits], by simp⟩
  | cons c cs ih =>
    cases hc : c.isDigit with
    | false => exact ⟨[], c :: cs, rfl, by simp [AllDigits], by rintro _ _ ⟨rfl, rfl⟩; exact hc⟩
    | true =>
      obtain ⟨ds, rest, h1, h2, h3⟩ := ih
      refine ⟨c :: ds, rest, by rw [h1]; rfl, ?_, h3⟩
      intro x hx
      rcases List.mem_cons.1 hx with rfl | hx
      · exact hc
      · exact h2 x hx

/-- Every string is a pattern, or a pattern up to an opening brace with a problem. -/
theorem pattern_cases : ∀ (n : Nat) (s : Str), s.length ≤ n → (∃ ps, WellFormedPattern ps ∧ s = render ps) ∨ LeftOpen s ∨
    (∃ ps ds c rest, WellFormedPattern ps ∧ AllDigits ds ∧ c.isDigit = false ∧ c ≠ '}' ∧
      s = render ps ++ '{' :: ds ++ c :: rest) := by
  intro n
  induction n with
  | zero =>
    intro s hs
    have : s = [] := List.eq_nil_of_length_eq_zero (by omega)
    exact .inl ⟨[], by simp [WellFormedPattern], by simp [this, render]⟩
  | succ n ih =>
    intro s hs
    have step : ∀ (x : Piece) (cs : Str), s = x.text ++ cs → (WellFormedPattern [x]) → cs.length ≤ n →
        (∃ ps, WellFormedPattern ps ∧ s = render ps) ∨ LeftOpen s ∨
        (∃ ps ds c rest, WellFormedPattern ps ∧ AllDigits ds ∧ c.isDigit = false ∧ c ≠ '}' ∧
          s = render ps ++ '{' :: ds ++ c :: rest) := by
      intro x cs he hx hl
      have hc : ∀ ps, WellFormedPattern ps → WellFormedPattern (x :: ps) := by
        intro ps h y hy
        rcases List.mem_cons.1 hy with rfl | hy
        · exact hx y (by simp)
        · exact h y hy
      rcases ih cs hl with ⟨ps, h1, h2⟩ | ⟨ps, ds, h1, h2, h3⟩ | ⟨ps, ds, c, rest, h1, h2, h3, h4, h5⟩
      · exact .inl ⟨x :: ps, hc ps h1, by rw [he, h2]; simp [render]⟩
      · exact .inr (.inl ⟨x :: ps, ds, hc ps h1, h2, by rw [he, h3]; simp [render]⟩)
      · exact .inr (.inr ⟨x :: ps, ds, c, rest, hc ps h1, h2, h3, h4, by rw [he, h5]; simp [render]⟩)
    cases s with
    | nil => exact .inl ⟨[], by simp [WellFormedPattern], by simp [render]⟩
    | cons c cs =>
      by_cases hc : c = '{'
      · subst hc
        obtain ⟨ds, rest, h1, h2, h3⟩ := span_digits cs
        cases rest with
        | nil => exact .inr (.inl ⟨[], ds, by simp [WellFormedPattern], h2, by simp [render, h1]⟩)
        | cons d r =>
          by_cases hd : d = '}'
          · subst hd
            refine step (.sub ds) r (by simp [Piece.text, h1]) (by intro x hx; rw [List.mem_singleton] at hx; subst hx; exact h2) ?_
            have := congrArg List.length h1
            simp at this hs
            omega
          · exact .inr (.inr ⟨[], ds, d, r, by simp [WellFormedPattern], h2, h3 d r rfl, hd, by simp [render, h1]⟩)
      · exact step (.lit c) cs (by simp [Piece.text]) (by intro x hx; rw [List.mem_singleton] at hx; subst hx; exact hc)
          (by simp at hs; omega)

/-! ## Substitution -/

theorem replaceLoop_skip (pat rep : Str) : ∀ (a b : Str), replaceLoop pat rep a.length (a ++ b) = replaceLoop pat rep 0 b := by
  intro a
  induction a with
  | nil => intro b; rfl
  | cons c cs ih => intro b; rw [List.cons_append, List.length_cons, replaceLoop]; exact ih b

theorem replaceLoop_pass (pat rep : Str) : ∀ (a b : Str), (∀ c ∈ a, c ≠ '{') →
    replaceLoop ('{' :: pat) rep 0 (a ++ b) = a ++ replaceLoop ('{' :: pat) rep 0 b := by
  intro a
  induction a with
  | nil => intro b _; rfl
  | cons c cs ih =>
    intro b h
    have hc := h c (by simp)
    rw [List.cons_append, replaceLoop, if_neg (by simp [List.isPrefixOf, Ne.symm hc]), ih b (fun x hx => h x (by simp [hx]))]
    rfl

/-- Digits followed by a closing brace determine the digits. -/
theorem digits_close : ∀ {a b : Str} {s t : Str}, AllDigits a → AllDigits b → a ++ '}' :: s = b ++ '}' :: t → a = b := by
  intro a
  induction a with
  | nil =>
    intro b s t _ hb h
    cases b with
    | nil => rfl
    | cons c cs =>
      have h1 : '}' = c := by injection h
      have := hb c (by simp)
      rw [← h1] at this
      cases this
  | cons c cs ih =>
    intro b s t ha hb h
    cases b with
    | nil =>
      have h1 : c = '}' := by injection h
      have := ha c (by simp)
      rw [h1] at this
      cases this
    | cons d ds =>
      have h1 : c = d := by injection h
      have h2 : cs ++ '}' :: s = ds ++ '}' :: t := by injection h
      rw [h1, ih (fun x hx => ha x (by simp [hx])) (fun x hx => hb x (by simp [hx])) h2]

/-- One number replaced. -/
def replacePiece (i : Nat) (v : Str) : Piece → List Piece
  | .lit c => [.lit c]
  | .sub body => if body = Nat.toDigits 10 i then v.map Piece.lit else [.sub body]

theorem render_lits (v : Str) : render (v.map Piece.lit) = v := by
  induction v with
  | nil => rfl
  | cons c cs ih =>
    simp only [render, List.map_cons, List.flatMap_cons, Piece.text] at ih ⊢
    rw [ih]; rfl

theorem render_append (a b : List Piece) : render (a ++ b) = render a ++ render b := by simp [render]

theorem toDigits_digits (n : Nat) : AllDigits (Nat.toDigits 10 n) :=
  fun _ hc => Nat.isDigit_of_mem_toDigits (by omega) (by omega) hc

theorem decimal_toDigits (n : Nat) : decimal (Nat.toDigits 10 n) = n := Nat.ofDigitChars_ten_toDigits

theorem replace_render (i : Nat) (v : Str) : ∀ (ps : List Piece), WellFormedPattern ps →
    strReplace (placeholder i) v (render ps) = render (ps.flatMap (replacePiece i v)) := by
  intro ps
  induction ps with
  | nil => intro _; rfl
  | cons x ps ih =>
    intro hw
    have ih := ih (fun y hy => hw y (by simp [hy]))
    have hx := hw x (by simp)
    have hr : render (x :: ps) = x.text ++ render ps := by simp [render]
    rw [hr, List.flatMap_cons, render_append, ← ih]
    unfold strReplace placeholder
    cases x with
    | lit c =>
      simp only at hx
      rw [replaceLoop_pass _ _ _ _ (by simpa [Piece.text] using hx)]
      simp [replacePiece, render, Piece.text]
    | sub body =>
      simp only at hx
      by_cases hb : body = Nat.toDigits 10 i
      · subst hb
        simp only [replacePiece, if_true, render_lits, Piece.text, List.cons_append]
        rw [replaceLoop, if_pos (by simp [List.isPrefixOf_iff_prefix])]
        congr 1
        exact replaceLoop_skip ('{' :: (Nat.toDigits 10 i ++ ['}'])) v (Nat.toDigits 10 i ++ ['}']) (render ps)
      · simp only [replacePiece, if_neg hb, Piece.text, List.cons_append]
        rw [replaceLoop, if_neg, replaceLoop_pass]
        · simp [render, Piece.text]
        · intro c hc
          rcases List.mem_append.1 hc with hc | hc
          · exact digit_ne (hx c hc) (by decide)
          · rw [List.mem_singleton] at hc; rw [hc]; decide
        · intro hp
          rw [List.isPrefixOf_iff_prefix] at hp
          obtain ⟨t, ht⟩ := hp
          simp only [List.cons_append, List.append_assoc, List.nil_append, List.cons.injEq, true_and] at ht
          exact hb (digits_close (toDigits_digits i) hx ht).symm

/-- A pattern in which some of the numbers have been replaced. -/
def replacePieces (caps : Captures) (is : List Nat) : Piece → List Piece
  | .lit c => [.lit c]
  | .sub body => if ∃ i ∈ is, body = Nat.toDigits 10 i then ((caps (decimal body)).getD []).map Piece.lit else [.sub body]

theorem wf_replacePiece {i : Nat} {v : Str} (hv : '{' ∉ v) {ps : List Piece} (hw : WellFormedPattern ps) :
    WellFormedPattern (ps.flatMap (replacePiece i v)) := by
  intro y hy
  rw [List.mem_flatMap] at hy
  obtain ⟨x, hx, hy⟩ := hy
  have hx' := hw x hx
  cases x with
  | lit c =>
    simp only [replacePiece, List.mem_singleton] at hy
    subst hy; exact hx'
  | sub body =>
    simp only [replacePiece] at hy
    split at hy
    · rw [List.mem_map] at hy
      obtain ⟨c, hc, rfl⟩ := hy
      intro he; subst he; exact hv hc
    · rw [List.mem_singleton] at hy
      subst hy; exact hx'

theorem flatMap_singleton' {α β : Type} (f : α → β) : ∀ l : List α, l.flatMap (fun x => [f x]) = l.map f := by
  intro l
  induction l with
  | nil => rfl
  | cons x xs ih => simp [ih]

theorem substAll_render (caps : Captures) (hcaps : BraceFree caps) : ∀ (is : List Nat) (ps : List Piece),
    WellFormedPattern ps → substAll caps is (render ps) = render (ps.flatMap (replacePieces caps is)) := by
  intro is
  induction is with
  | nil =>
    intro ps hw
    clear hw
    rw [substAll]
    congr 1
    induction ps with
    | nil => rfl
    | cons x ps ih =>
      rw [List.flatMap_cons, ← ih]
      cases x <;> simp [replacePieces]
  | cons i is ih =>
    intro ps hw
    have hv : '{' ∉ (caps i).getD [] := by
      cases hc : caps i with
      | none => simp
      | some s => exact hcaps i s hc
    rw [substAll, replace_render i _ ps hw, ih _ (wf_replacePiece hv hw), List.flatMap_assoc]
    congr 1
    induction ps with
    | nil => rfl
    | cons x ps ihp =>
      rw [List.flatMap_cons, List.flatMap_cons, ihp (fun y hy => hw y (by simp [hy]))]
      congr 1
      cases x with
      | lit c => simp [replacePiece, replacePieces]
      | sub body =>
        simp only [replacePiece, replacePieces]
        by_cases hb : body = Nat.toDigits 10 i
        · rw [if_pos hb, if_pos ⟨i, by simp, hb⟩, List.flatMap_map]
          simp only [replacePieces]
          rw [flatMap_singleton', hb, decimal_toDigits]
        · rw [if_neg hb]
          simp only [List.flatMap_cons, List.flatMap_nil, List.append_nil, replacePieces]
          have : (∃ j ∈ i :: is, body = Nat.toDigits 10 j) ↔ ∃ j ∈ is, body = Nat.toDigits 10 j := by
            simp [hb]
          simp only [this]

theorem canonical_wf {ps : List Piece} (h : CanonicalPattern ps) : WellFormedPattern ps := by
  intro x hx
  have := h x hx
  cases x with
  | lit c => exact this
  | sub body => obtain ⟨n, _, rfl⟩ := this; exact toDigits_digits n

theorem substAll_expand {caps : Captures} (hcaps : BraceFree caps) {ps : List Piece} (h : CanonicalPattern ps) :
    substAll caps (numbersIn ps) (render ps) = expand caps ps := by
  rw [substAll_render caps hcaps _ _ (canonical_wf h)]
  have key : ∀ (is : List Nat) (qs : List Piece), (∀ x ∈ qs, x ∈ ps) → (∀ x ∈ qs, match x with
      | .lit _ => True
      | .sub body => decimal body ∈ is) → render (qs.flatMap (replacePieces caps is)) = expand caps qs := by
    intro is qs
    induction qs with
    | nil => intro _ _; rfl
    | cons x qs ih =>
      intro hs hin
      rw [List.flatMap_cons, render_append, ih (fun y hy => hs y (by simp [hy])) (fun y hy => hin y (by simp [hy]))]
      have hx := hin x (by simp)
      have hc := h x (hs x (by simp))
      cases x with
      | lit c => simp [replacePieces, render, expand, Piece.text]
      | sub body =>
        obtain ⟨n, _, rfl⟩ := hc
        simp only [decimal_toDigits] at hx
        simp only [replacePieces]
        rw [if_pos ⟨n, hx, rfl⟩, render_lits]
        simp [expand]
  refine key _ ps (fun x hx => hx) ?_
  intro x hx
  cases x with
  | lit c => trivial
  | sub body => exact List.mem_filterMap.2 ⟨_, hx, rfl⟩

/-! ## The path of a rewritten pattern -/

theorem trimStart_eq_dropWhile (c : Char) : ∀ s, trimStart c s = s.dropWhile (fun d => d == c) := by
  intro s
  induction s with
  | nil => rfl
  | cons d ds ih =>
    rw [trimStart, List.dropWhile_cons, ih]
    simp

theorem trimSlashes_eq_dropWhile : ∀ s : Str, trimSlashes s = s.dropWhile (fun d => d == '/') := by
  intro s
  induction s with
  | nil => rfl
  | cons d ds ih =>
    by_cases h : d = '/'
    · subst h; simp [trimSlashes, ih]
    · rw [List.dropWhile_cons, if_neg (by simpa using h)]
      unfold trimSlashes
      split
      · rename_i he; cases he; exact absurd rfl h
      · rfl

theorem pathFromIter_split (s : Str) : pathFromIter (splitSlash s) = components s := by
  unfold pathFromIter components
  congr 1
  funext c
  cases c <;> simp

theorem components_trim (s : Str) : components (trimSlashes s) = components s := hostComps_trim s

theorem components_slash (a b : Str) : components (a ++ '/' :: b) = components a ++ components b := by
  unfold components
  rw [splitSlash_join, List.filter_append]

theorem components_nil : components [] = [] := by simp [components, splitSlash]

/-- Trailing slashes add nothing. -/
theorem trimEnd_spec (s : Str) : ∃ k, s = trimEnd '/' s ++ List.replicate k '/' := by
  unfold trimEnd
  have key : ∀ t : Str, ∃ k, t = List.replicate k '/' ++ trimStart '/' t := by
    intro t
    induction t with
    | nil => exact ⟨0, rfl⟩
    | cons c cs ih =>
      by_cases h : c = '/'
      · subst h
        obtain ⟨k, hk⟩ := ih
        refine ⟨k + 1, ?_⟩
        rw [trimStart, if_pos rfl, List.replicate_succ, List.cons_append, ← hk]
      · exact ⟨0, by rw [trimStart, if_neg h]; rfl⟩
  obtain ⟨k, hk⟩ := key s.reverse
  refine ⟨k, ?_⟩
  have := congrArg List.reverse hk
  simpa using this

theorem components_replicate (a : Str) : ∀ k, components (a ++ List.replicate k '/') = components a := by
  intro k
  induction k with
  | zero => simp
  | succ k ih =>
    rw [List.replicate_succ', ← List.append_assoc, components_slash, components_nil, ih, List.append_nil]

/-- Leading dots. -/
theorem dropDots_append {a : Str} (b : Str) : ∃ a', trimStart '.' (a ++ '/' :: b) = a' ++ '/' :: b ∧ trimStart '.' a = a' := by
  refine ⟨_, ?_, rfl⟩
  induction a with
  | nil => simp [trimStart]
  | cons c cs ih =>
    rw [List.cons_append, trimStart, trimStart]
    split
    · exact ih
    · rfl

theorem components_dots_trimEnd (e : Str) : components (trimStart '.' (trimEnd '/' e)) = components (trimStart '.' e) := by
  obtain ⟨k, hk⟩ := trimEnd_spec e
  conv => rhs; rw [hk]
  cases k with
  | zero => simp
  | succ k =>
    obtain ⟨a', h1, h2⟩ := dropDots_append (a := trimEnd '/' e) (List.replicate k '/')
    rw [List.replicate_succ, h1, h2, components_slash]
    have := components_replicate [] k
    rw [List.nil_append, components_nil] at this
    rw [this, List.append_nil]

theorem components_plain : ∀ {s : Path}, PlainPath s → components (joinSlash s) = s := by
  intro s
  induction s with
  | nil => intro _; exact components_nil
  | cons c cs ih =>
    intro hp
    obtain ⟨h1, h2⟩ := hp c (by simp)
    have hc : components c = [c] := by
      unfold components
      rw [splitSlash_plain h2]
      simp [h1]
    cases cs with
    | nil => exact hc
    | cons d ds =>
      rw [joinSlash, components_slash, ih (fun x hx => hp x (by simp [hx])), hc]
      · rfl
      · simp

theorem target_components {e : Str} {rest : Path} (hr : PlainPath rest) :
    pathFromIter (splitSlash (trimStart '/' (trimStart '.'
      (if rest = [] then e else trimEnd '/' e ++ pathAsString rest)))) = components (trimStart '.' e) ++ rest := by
  have hts : ∀ s, trimStart '/' s = trimSlashes s := fun s => by rw [trimStart_eq_dropWhile, trimSlashes_eq_dropWhile]
  rw [hts, pathFromIter_split, components_trim]
  by_cases h : rest = []
  · simp [h]
  · rw [if_neg h, pathAsString]
    obtain ⟨a', h1, h2⟩ := dropDots_append (a := trimEnd '/' e) (joinSlash rest)
    rw [h1, ← h2, components_slash, components_plain hr, components_dots_trimEnd]

end Xdvdfs

namespace Xdvdfs

open Spec

theorem decimal_le_append (a : Str) : ∀ (b : Str), decimal a ≤ decimal (a ++ b) := by
  intro b
  induction b generalizing a with
  | nil => simp
  | cons c cs ih =>
    have h1 := ih (a ++ [c])
    rw [decimal_append] at h1
    have : a ++ [c] ++ cs = a ++ c :: cs := by simp
    rw [this] at h1
    omega

theorem digits_before_brace : ∀ {ds b body : Str} {t : Str}, AllDigits ds → ds ++ b = body ++ '}' :: t →
    ∃ r, body = ds ++ r := by
  intro ds
  induction ds with
  | nil => intro b body t _ _; exact ⟨body, rfl⟩
  | cons c cs ih =>
    intro b body t hd h
    cases body with
    | nil =>
      have h1 : c = '}' := by injection h
      have := hd c (by simp)
      rw [h1] at this; cases this
    | cons d ds =>
      have h1 : c = d := by injection h
      have h2 : cs ++ b = ds ++ '}' :: t := by injection h
      obtain ⟨r, hr⟩ := ih (fun x hx => hd x (by simp [hx])) h2
      exact ⟨r, by rw [h1, hr]; rfl⟩

theorem canonical_fit : ∀ {ps : List Piece}, CanonicalPattern ps → NumbersFit (render ps) := by
  intro ps
  induction ps with
  | nil => intro _ a ds b _ h; simp [render] at h
  | cons x ps ih =>
    intro hc a ds b hd he
    have ih := ih (fun y hy => hc y (by simp [hy]))
    have hx := hc x (by simp)
    have hr : render (x :: ps) = x.text ++ render ps := by simp [render]
    rw [hr, List.append_assoc] at he
    rcases List.append_eq_append_iff.1 he with ⟨c, e1, e2⟩ | ⟨c, e1, e2⟩
    · exact ih c ds b hd (by rw [e2, List.append_assoc])
    · cases c with
      | nil =>
        simp only [List.nil_append] at e2
        exact ih [] ds b hd (by rw [← e2]; rfl)
      | cons z c =>
        simp only [List.cons_append, List.cons.injEq] at e2
        obtain ⟨rfl, e2⟩ := e2
        cases x with
        | lit y =>
          simp only at hx
          simp only [Piece.text] at e1
          cases a with
          | nil => simp at e1; exact absurd e1.1 hx
          | cons w a => simp at e1
        | sub body =>
          obtain ⟨n, hn, rfl⟩ := hx
          simp only [Piece.text] at e1
          cases a with
          | nil =>
            simp only [List.nil_append, List.cons.injEq, true_and] at e1
            obtain ⟨r, hr⟩ := digits_before_brace (t := render ps) (body := Nat.toDigits 10 n) hd (by rw [e2, ← e1]; simp)
            have := decimal_le_append ds r
            rw [← hr, decimal_toDigits] at this
            omega
          | cons w a =>
            simp only [List.cons_append, List.cons.injEq] at e1
            exfalso
            have : '{' ∈ Nat.toDigits 10 n ++ ['}'] := by rw [e1.2]; simp
            rcases List.mem_append.1 this with h | h
            · exact digit_ne (toDigits_digits n _ h) (by decide) rfl
            · simp at h

end Xdvdfs
