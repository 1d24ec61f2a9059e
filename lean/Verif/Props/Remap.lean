import Verif.Proof.Remap
import Verif.Props.Flat

/-!
# Properties of remapping (C49, C50, C51, C68, C69)
-/

namespace Xdvdfs.Props
open Xdvdfs Spec

/-! ## C51: rewrite patterns -/

/-- C51, for patterns without a brace inside braces and with numbers below `2^64`: a pattern is accepted
exactly if it consists of characters and of digits in braces, and then yields the numbers in the braces, in
order; it is rejected exactly if a brace is left open or if braces contain a character that is not a digit,
and the position reported for that is the position of the first such character.  The general statement is
false, see `C51_patterns_false`. -/
theorem C51_patterns_partial {s : Str} (hn : ¬ NestedBrace s) (hf : NumbersFit s) :
    (∃ r, findMatchIndices s = .ok r) ∧
    (∀ ns, findMatchIndices s = .ok (.ok ns) ↔ ∃ ps, WellFormedPattern ps ∧ s = render ps ∧ ns = numbersIn ps) ∧
    ((∃ i, findMatchIndices s = .ok (.error (i, .unclosed))) ↔ LeftOpen s) ∧
    (∀ i, findMatchIndices s = .ok (.error (i, .nonDigit)) ↔ NonDigitAt s i) := by
  have hopen : LeftOpen s → ∃ i, findMatchIndices s = .ok (.error (i, .unclosed)) := by
    rintro ⟨ps, ds, h1, h2, h3⟩
    rw [h3] at hf ⊢
    exact ⟨_, find_open h1 h2 hf⟩
  have hbad : ∀ i, NonDigitAt s i → findMatchIndices s = .ok (.error (i, .nonDigit)) := by
    rintro i ⟨ps, ds, c, rest, h1, h2, h3, h4, h5, h6⟩
    have h7 : c ≠ '{' := by
      rintro rfl
      exact hn ⟨ps, ds, rest, h1, h2, h5⟩
    rw [h6]
    rw [h5] at hf ⊢
    exact find_nonDigit h1 h2 h3 h4 h7 hf
  have hok : ∀ ns, (∃ ps, WellFormedPattern ps ∧ s = render ps ∧ ns = numbersIn ps) →
      findMatchIndices s = .ok (.ok ns) := by
    rintro ns ⟨ps, h1, h2, h3⟩
    rw [h3]
    rw [h2] at hf ⊢
    exact find_ok h1 hf
  rcases pattern_cases s.length s (Nat.le_refl _) with ⟨ps, h1, h2⟩ | h | ⟨ps, ds, c, rest, h1, h2, h3, h4, h5⟩
  · have h := hok _ ⟨ps, h1, h2, rfl⟩
    refine ⟨⟨_, h⟩, fun ns => ⟨fun h' => ?_, hok ns⟩, ⟨?_, hopen⟩, fun i => ⟨?_, hbad i⟩⟩
    · rw [h] at h'; cases h'
      exact ⟨ps, h1, h2, rfl⟩
    · rintro ⟨i, h'⟩; rw [h] at h'; cases h'
    · intro h'; rw [h] at h'; cases h'
  · obtain ⟨i, hi⟩ := hopen h
    refine ⟨⟨_, hi⟩, fun ns => ⟨fun h' => ?_, hok ns⟩, ⟨fun _ => h, hopen⟩, fun i => ⟨?_, hbad i⟩⟩
    · rw [hi] at h'; cases h'
    · intro h'; rw [hi] at h'; cases h'
  · have hnd : NonDigitAt s (render ps ++ '{' :: ds).length := ⟨ps, ds, c, rest, h1, h2, h3, h4, h5, rfl⟩
    have hi := hbad _ hnd
    refine ⟨⟨_, hi⟩, fun ns => ⟨fun h' => ?_, hok ns⟩, ⟨?_, hopen⟩, fun i => ⟨fun h' => ?_, hbad i⟩⟩
    · rw [hi] at h'; cases h'
    · rintro ⟨i, h'⟩; rw [hi] at h'; cases h'
    · rw [hi] at h'; cases h'; exact hnd

/-- Canonical patterns meet the hypotheses of C51. -/
theorem canonical_not_nested {ps : List Piece} (h : CanonicalPattern ps) : ¬ NestedBrace (render ps) := by
  rintro ⟨qs, ds, rest, h1, h2, h3⟩
  have hf := canonical_fit h
  have ho := find_ok (canonical_wf h) hf
  rw [h3] at ho
  have hno : ∀ (qs : List Piece), WellFormedPattern qs → ∀ ps, CanonicalPattern ps →
      render ps ≠ render qs ++ '{' :: ds ++ '{' :: rest := by
    intro qs
    induction qs with
    | nil =>
      intro _ ps hp he
      cases ps with
      | nil => simp [render] at he
      | cons x ps =>
        have hx := hp x (by simp)
        cases x with
        | lit c => simp [render, Piece.text] at he; exact hx he.1
        | sub body =>
          obtain ⟨n, _, rfl⟩ := hx
          simp only [render, Piece.text, List.flatMap_cons, List.flatMap_nil, List.nil_append, List.cons_append,
            List.cons.injEq, true_and, List.append_assoc] at he
          obtain ⟨r, hr⟩ := digits_before_brace h2 he.symm
          rw [hr, List.append_assoc] at he
          have he := List.append_cancel_left he
          cases r with
          | nil => simp at he
          | cons z r =>
            simp at he
            have := toDigits_digits n '{' (by rw [hr, he.1]; simp)
            cases this
    | cons y qs ih =>
      intro hw ps hp he
      have hy := hw y (by simp)
      cases ps with
      | nil =>
        have := congrArg List.length he
        simp [render] at this
      | cons x ps =>
        have hx := hp x (by simp)
        have hp' : CanonicalPattern ps := fun z hz => hp z (by simp [hz])
        have hw' : WellFormedPattern qs := fun z hz => hw z (by simp [hz])
        cases x with
        | lit c =>
          cases y with
          | lit d =>
            simp only [render, Piece.text, List.flatMap_cons, List.cons_append, List.nil_append, List.cons.injEq] at he
            exact ih hw' ps hp' he.2
          | sub body =>
            simp only [render, Piece.text, List.flatMap_cons, List.cons_append, List.nil_append, List.cons.injEq] at he
            exact hx he.1
        | sub body =>
          obtain ⟨n, _, rfl⟩ := hx
          cases y with
          | lit d =>
            simp only [render, Piece.text, List.flatMap_cons, List.cons_append, List.nil_append, List.cons.injEq] at he
            exact hy he.1.symm
          | sub body' =>
            simp only [render, Piece.text, List.flatMap_cons, List.cons_append, List.nil_append, List.cons.injEq,
              true_and, List.append_assoc] at he
            have := digits_close (toDigits_digits n) hy he
            subst this
            have he := List.append_cancel_left he
            simp only [List.cons.injEq, true_and] at he
            refine ih hw' ps hp' ?_
            simp only [render, List.append_assoc, List.cons_append]
            exact he
  exact hno qs h1 ps h h3

/-- The pattern `{1}/{20}}` meets the hypotheses of C51 and yields 1 and 20. -/
example : ∃ s, s = ['{', '1', '}', '/', '{', '2', '0', '}', '}'] ∧ ¬ NestedBrace s ∧ NumbersFit s ∧
    findMatchIndices s = .ok (.ok [1, 20]) := by
  have hc : CanonicalPattern [.sub ['1'], .lit '/', .sub ['2', '0'], .lit '}'] := by
    intro x hx
    simp only [List.mem_cons, List.not_mem_nil, or_false] at hx
    rcases hx with rfl | rfl | rfl | rfl
    · exact ⟨1, by decide, by decide⟩
    · simp
    · exact ⟨20, by decide, by decide⟩
    · simp
  exact ⟨_, rfl, canonical_not_nested hc, canonical_fit hc, rfl⟩

/-- C51 is false in general: `{1{2}` has a brace whose content is not a number, and is accepted, with the
number 12; and a number of 2^64 is an arithmetic overflow. -/
theorem C51_patterns_false :
    (∃ s ns, findMatchIndices s = .ok (.ok ns) ∧ NonDigitAt s 2 ∧
      ¬ ∃ ps, WellFormedPattern ps ∧ s = render ps ∧ ns = numbersIn ps) ∧
    ∃ ps, WellFormedPattern ps ∧ findMatchIndices (render ps) = .panic := by
  refine ⟨⟨['{', '1', '{', '2', '}'], [12], rfl, ?_, ?_⟩, ?_⟩
  · exact ⟨[], ['1'], '{', ['2', '}'], by simp [WellFormedPattern], by simp [AllDigits], by decide, by decide,
      by simp [render], by simp [render]⟩
  · rintro ⟨ps, h1, h2, h3⟩
    cases ps with
    | nil => simp [render] at h2
    | cons x ps =>
      have hx := h1 x (by simp)
      cases x with
      | lit c => simp [render, Piece.text] at h2; exact hx h2.1.symm
      | sub body =>
        simp only [render, Piece.text, List.flatMap_cons, List.cons_append, List.cons.injEq, true_and,
          List.append_assoc, List.nil_append] at h2
        have hx : AllDigits body := hx
        cases body with
        | nil => simp at h2
        | cons a body =>
          simp only [List.cons_append, List.cons.injEq] at h2
          cases body with
          | nil => simp at h2
          | cons b body =>
            simp only [List.cons_append, List.cons.injEq] at h2
            have := hx b (by simp)
            rw [← h2.2.1] at this
            cases this
  · refine ⟨[.sub (Nat.toDigits 10 (2 ^ 64))], ?_, rfl⟩
    intro x hx
    rw [List.mem_singleton] at hx
    subst hx
    exact toDigits_digits _

/-! ## C68: substitution -/

/-- C68, for patterns whose numbers are written without leading zeros and captured texts without opening
brace: the image path of a host path is given by the pattern with every `{n}` replaced by the text captured
under `n` (nothing if there is none), with leading dots removed, split into its non-empty components, and
followed by the components of the host path below the part that was matched.  The general statement is
false, see `C68_substitution_false`. -/
theorem C68_substitution_partial {ps : List Piece} {caps : Captures} {rest : Path} (hp : CanonicalPattern ps)
    (hc : BraceFree caps) (hr : PlainPath rest) :
    rewriteTarget (render ps) caps rest =
      .ok (components ((expand caps ps).dropWhile (fun c => c == '.')) ++ rest) := by
  unfold rewriteTarget
  rw [find_ok (canonical_wf hp) (canonical_fit hp), Res.ok_bind]
  simp only
  rw [substAll_expand hc hp, ← trimStart_eq_dropWhile, Res.pure_eq, target_components hr]

/-- The hypotheses of C68 hold for the pattern `./out/{1}`, with `x` captured, and one component below. -/
example : rewriteTarget ['.', '/', 'o', '/', '{', '1', '}'] (fun i => if i = 1 then some ['x'] else none) [['y']] =
    .ok [['o'], ['x'], ['y']] := by
  have := C68_substitution_partial (ps := [.lit '.', .lit '/', .lit 'o', .lit '/', .sub ['1']])
    (caps := fun i => if i = 1 then some ['x'] else none) (rest := [['y']])
    (by
      intro x hx
      simp only [List.mem_cons, List.not_mem_nil, or_false] at hx
      rcases hx with rfl | rfl | rfl | rfl | rfl
      · simp
      · simp
      · simp
      · simp
      · exact ⟨1, by decide, by decide⟩)
    (by
      intro i s h
      simp only at h
      split at h
      · cases h; decide
      · cases h)
    (by intro s hs; simp at hs; subst hs; decide)
  exact this

/-- C68 is false in general: `{01}` is accepted as the number 1 and then not replaced, and text that was
substituted is substituted again if it looks like `{1}`. -/
theorem C68_substitution_false :
    (∃ ps caps, WellFormedPattern ps ∧ BraceFree caps ∧ findMatchIndices (render ps) = .ok (.ok [1]) ∧
      caps 1 = some ['v'] ∧ expand caps ps = ['v'] ∧ rewriteTarget (render ps) caps [] = .ok [['{', '0', '1', '}']]) ∧
    ∃ ps caps, CanonicalPattern ps ∧ expand caps ps = ['{', '1', '}', 'z'] ∧
      rewriteTarget (render ps) caps [] = .ok [['z', 'z']] := by
  refine ⟨⟨[.sub ['0', '1']], fun i => if i = 1 then some ['v'] else none, ?_, ?_, rfl, rfl, by decide,
    by decide⟩, ⟨[.sub ['0'], .sub ['1']],
      fun i => if i = 0 then some ['{', '1', '}'] else if i = 1 then some ['z'] else none, ?_, by decide, by decide⟩⟩
  · intro x hx
    rw [List.mem_singleton] at hx
    subst hx
    intro c hc
    simp at hc
    rcases hc with rfl | rfl <;> decide
  · intro i s h
    simp only at h
    split at h
    · cases h; decide
    · cases h
  · intro x hx
    simp only [List.mem_cons, List.not_mem_nil, or_false] at hx
    rcases hx with rfl | rfl
    · exact ⟨0, by decide, by decide⟩
    · exact ⟨1, by decide, by decide⟩

instance (r : Rule) : Decidable (Exclusion r) := by unfold Exclusion; infer_instance

/-! ## A sample: a host with a directory and two files, and an engine with literal globs -/

/-- A glob engine in which every pattern matches only itself and captures the whole text as number 0. -/
def literalGlobs : GlobEngine := fun pat => some (fun s => if s = pat then some (fun i => if i = 0 then some s else none) else none)

theorem literal_matches {r : Rule} {p : Path} {caps : Captures} :
    Matches literalGlobs r p caps ↔ relativeText p = ruleGlob r ∧ caps = fun i => if i = 0 then some (ruleGlob r) else none := by
  unfold Matches literalGlobs
  constructor
  · rintro ⟨g, h1, h2⟩
    cases h1
    simp only at h2
    split at h2
    · rename_i h
      cases h2
      exact ⟨h, by rw [h]⟩
    · cases h2
  · rintro ⟨h1, rfl⟩
    exact ⟨_, rfl, by rw [h1]; simp⟩

theorem literal_hits {r : Rule} {p : Path} : Hits literalGlobs r p ↔ relativeText p = ruleGlob r := by
  unfold Hits
  simp [literal_matches]

/-- Map the directory `A` to `o/A`, and the file `b.txt` to `B`. -/
def sampleRules : List Rule := [(['A'], ['o', '/', '{', '0', '}']), (['b', '.', 't', 'x', 't'], ['.', '/', 'B'])]

def isOk (r : Res α) : Bool := match r with
  | .ok _ => true
  | _ => false

theorem isOk_iff {r : Res α} : isOk r = true ↔ ∃ a, r = .ok a := by
  cases r <;> simp [isOk]

set_option maxRecDepth 20000 in
theorem sample_remaps : ∃ t, remapNew literalGlobs sampleRules sampleFs'.readDir 10 = .ok t := by
  rw [← isOk_iff]
  decide +kernel

theorem sample_selected : SelectedRule literalGlobs sampleRules [['A']] (['A'], ['o', '/', '{', '0', '}']) := by
  refine ⟨[], [], [(['b', '.', 't', 'x', 't'], ['.', '/', 'B'])], rfl, .inl rfl, by simp, by decide, literal_hits.2 (by decide), ?_⟩
  intro x hx
  rw [List.mem_singleton] at hx
  subst hx
  intro he
  exact absurd he (by decide)

theorem sample_mapsTo : MapsTo literalGlobs sampleRules [['A'], ['c']] [['o'], ['A'], ['c']] := by
  refine ⟨[['A']], [['c']], _, fun i => if i = 0 then some ['A'] else none, rfl, ?_, sample_selected,
    literal_matches.2 ⟨by decide, rfl⟩, by decide⟩
  refine ⟨⟨[['c']], rfl⟩, by simp, ⟨_, List.mem_cons_self, literal_hits.2 (by decide)⟩, ?_⟩
  intro m' hm' hl r hr
  have : m' = [['A'], ['c']] := by
    obtain ⟨s, hs⟩ := hm'
    have := congrArg List.length hs
    simp at this hl
    have h0 : s = [] := List.eq_nil_of_length_eq_zero (by omega)
    rw [h0, List.append_nil] at hs
    exact hs
  subst this
  rw [literal_hits]
  simp only [sampleRules, List.mem_cons, List.not_mem_nil, or_false] at hr
  rcases hr with rfl | rfl <;> decide

/-! ## C49: precedence of rules -/

/-- C49: when the overlay is built, every mapping it reports is from an entry of the host to the place where
the rules map it: the longest initial part of the host path that some rule matches is rewritten by the first
rule that matches it after the last exclusion that matches it.  Conversely every entry of the host to which
such a rule applies has a place, and unless that is the root, something is recorded there.  Nothing maps to
two places. -/
theorem C49_remap_precedence {G : GlobEngine} {rules : List Rule} {readDir : Path → Res (List FileEntry)} {fuel : Nat}
    {t : Trie MapEntry} (h : remapNew G rules readDir fuel = .ok t) :
    (∀ k out hp q, remapDump t k = .ok out → (hp, q) ∈ out →
      (∃ d e, EntryIn readDir d e ∧ hp = d ++ [e.name]) ∧ MapsTo G rules hp q) ∧
    (∀ d e, EntryIn readDir d e → IsMapped G rules (d ++ [e.name]) →
      ∃ q, MapsTo G rules (d ++ [e.name]) q ∧ (q ≠ [] → ∃ m, t.get q = .ok (some m))) ∧
    ∀ p q q', MapsTo G rules p q → MapsTo G rules p q' → q = q' := by
  obtain ⟨hist, h1, h2, h3, h4⟩ := remapNew_spec h
  refine ⟨?_, ?_, fun p q q' => mapsTo_unique⟩
  · intro k out hp q hd hm
    obtain ⟨hq, m, e1, e2, e3⟩ := dump_sound h1 hd hm
    rw [h2 q hq] at e1
    unfold histLook at e1
    obtain ⟨x, f1, f2⟩ := Option.map_eq_some_iff.1 e1
    obtain ⟨path, e, q'⟩ := x
    have hx := (h3 path e q').1 (List.mem_of_find?_eq_some f1)
    have hqq : q = q' := by
      rw [← f2] at e2
      unfold chainVal at e2
      split at e2
      · assumption
      · cases e2
    subst hqq
    simp only [chainVal, if_true] at f2
    rw [← f2] at e3
    simp only at e3
    subst e3
    obtain ⟨d, g1, g2, g3⟩ := hx
    exact ⟨⟨d, e, g1, g2⟩, g3⟩
  · intro d e he hmap
    obtain ⟨q, hq⟩ := h4 d e he hmap
    refine ⟨q, hq, ?_⟩
    intro h0
    have hmem := (h3 _ e q).2 ⟨d, he, rfl, hq⟩
    have : ∃ m, Trie.look q t = some m := by
      rw [h2 q h0]
      unfold histLook
      cases hf : hist.find? (fun x => decide (q <+: x.2.2)) with
      | none =>
        have := List.find?_eq_none.1 hf _ hmem
        simp at this
      | some x => exact ⟨_, rfl⟩
    obtain ⟨m, hm⟩ := this
    exact ⟨m, by rw [Trie.get_eq h1 (Trie.look_latin1 h1 hm) h0, hm]⟩

/-- The hypotheses of C49 hold for the sample; the file in `A` is mapped below `o/A`, as are all directories and
files that rules match. -/
example : ∃ t, remapNew literalGlobs sampleRules sampleFs'.readDir 10 = .ok t ∧
    EntryIn sampleFs'.readDir [['A']] ⟨['c'], false, 3⟩ ∧ IsMapped literalGlobs sampleRules [['A'], ['c']] ∧
    MapsTo literalGlobs sampleRules [['A'], ['c']] [['o'], ['A'], ['c']] := by
  obtain ⟨t, ht⟩ := sample_remaps
  obtain ⟨m, s, r, c, h1, h2, h3, _⟩ := id sample_mapsTo
  exact ⟨t, ht, (sample_entries _ _).2 (.inr (.inr ⟨rfl, rfl⟩)), ⟨m, r, h2, h3⟩, sample_mapsTo⟩

/-- A later rule applies after an exclusion, and not otherwise. -/
example : SelectedRule literalGlobs [(['a'], ['x']), (['!', 'a'], []), (['b'], ['z']), (['a'], ['y']), (['a'], ['w'])] [['a']] (['a'], ['y']) ∧
    ∀ r, ¬ SelectedRule literalGlobs [(['a'], ['x']), (['!', 'a'], [])] [['a']] r := by
  constructor
  · refine ⟨[(['a'], ['x']), (['!', 'a'], [])], [(['b'], ['z'])], [(['a'], ['w'])], rfl,
      .inr ⟨[(['a'], ['x'])], _, rfl, by decide, literal_hits.2 (by decide)⟩, ?_, by decide, literal_hits.2 (by decide), ?_⟩
    · intro x hx
      rw [List.mem_singleton] at hx
      subst hx
      rw [literal_hits]; decide
    · intro x hx
      rw [List.mem_singleton] at hx
      subst hx
      intro he
      exact absurd he (by decide)
  · intro r
    exact unselected_not ⟨[(['a'], ['x']), (['!', 'a'], [])], [], rfl,
      .inr ⟨[(['a'], ['x'])], _, rfl, by decide, literal_hits.2 (by decide)⟩, by simp⟩ r

/-! ## C50: listing and copying agree -/

theorem file_record {hist : List (Path × FileEntry × Path)} {q : Path} {m : MapEntry} (h : histLook hist q = some m)
    (hf : m.hostEntry.isDir = false) : (m.hostPath, m.hostEntry, q) ∈ hist ∧ m.isPrefixDir = false := by
  unfold histLook at h
  obtain ⟨⟨path, e, q'⟩, f1, f2⟩ := Option.map_eq_some_iff.1 h
  have hmem := List.mem_of_find?_eq_some f1
  simp only [chainVal] at f2
  split at f2
  · rename_i hq
    subst hq
    rw [← f2]
    exact ⟨hmem, rfl⟩
  · rw [← f2] at hf; cases hf

/-- C50: every file the overlay lists is a file of the host, mapped there by the rules, of the same length;
copying it copies that file of the host, and the mapping reported for it is from that file. -/
theorem C50_listing_copy_agree {G : GlobEngine} {rules : List Rule} {host : SourceFs} {fuel : Nat} {t : Trie MapEntry}
    (h : remapNew G rules host.readDir fuel = .ok t) {k : Nat} {d : Path} {e : FileEntry}
    (he : EntryIn (remapFs host t k).readDir d e) (hf : e.isDir = false) :
    ∃ p he, EntryIn host.readDir p he ∧ he.isDir = false ∧ he.len = e.len ∧
      MapsTo G rules (p ++ [he.name]) (d ++ [e.name]) ∧
      (∀ off size, (remapFs host t k).copy (d ++ [e.name]) off size = host.copy (p ++ [he.name]) off size) ∧
      ∀ k' out, remapDump t k' = .ok out → (p ++ [he.name], d ++ [e.name]) ∈ out := by
  obtain ⟨hist, h1, h2, h3, h4⟩ := remapNew_spec h
  obtain ⟨_, m, e1, e2, e3⟩ := overlay_entry h1 he
  have e1' := e1
  rw [h2 _ (by simp)] at e1'
  obtain ⟨f1, f2⟩ := file_record e1' (by rw [← e2]; exact hf)
  obtain ⟨p, g1, g2, g3⟩ := (h3 _ _ _).1 f1
  refine ⟨p, m.hostEntry, g1, by rw [← e2]; exact hf, e3.symm, by rw [← g2]; exact g3, ?_, ?_⟩
  · intro off size
    rw [← g2]
    exact remapCopy_look h1 (by simp) e1 off size
  · intro k' out hd
    rw [← g2]
    exact dump_complete h1 hd he.1 e1 f2

/-- C50: reporting the mappings ends. -/
theorem C50_dump_returns {G : GlobEngine} {rules : List Rule} {readDir : Path → Res (List FileEntry)} {fuel : Nat}
    {t : Trie MapEntry} (h : remapNew G rules readDir fuel = .ok t) :
    ∃ k0, ∀ k, k0 ≤ k → ∃ out, remapDump t k = .ok out := by
  obtain ⟨hist, h1, _⟩ := remapNew_spec h
  exact dump_ends h1

/-- C50: packing the overlay gives an image that holds the tree the overlay lists, and every file in it has the
content of the file of the host that the rules map there. -/
theorem C50_packed_overlay {G : GlobEngine} {rules : List Rule} {host : SourceFs} {content : Path → Bytes} {fuel : Nat}
    {t : Trie MapEntry} (h : remapNew G rules host.readDir fuel = .ok t) {k : Nat} (hb : Bounded host)
    (hc : FaithfulTo host content) {faults : Faults} {fuel' : Nat} {img0 : Bytes} {s' : PackState ImgFile}
    (hpack : createImage (fileEnv (remapFs host t k) faults) fuel' ⟨⟨img0, []⟩, []⟩ = (.ok (), s')) :
    ∃ src : Path → Path, HoldsTree (fileDev s'.dev.img) (remapFs host t k).readDir (fun q => content (src q)) ∧
      ∀ d e, EntryIn (remapFs host t k).readDir d e → e.isDir = false → MapsTo G rules (src (d ++ [e.name])) (d ++ [e.name]) ∧
        ∃ p he, EntryIn host.readDir p he ∧ he.isDir = false ∧ src (d ++ [e.name]) = p ++ [he.name] := by
  obtain ⟨hist, h1, h2, h3, h4⟩ := remapNew_spec h
  let src : Path → Path := fun q => match Trie.look q t with
    | some m => m.hostPath
    | none => []
  have key : ∀ d e, EntryIn (remapFs host t k).readDir d e → e.isDir = false → MapsTo G rules (src (d ++ [e.name])) (d ++ [e.name]) ∧
      ∃ p he, EntryIn host.readDir p he ∧ he.isDir = false ∧ he.len = e.len ∧ src (d ++ [e.name]) = p ++ [he.name] := by
    intro d e he hf
    obtain ⟨_, m, e1, e2, e3⟩ := overlay_entry h1 he
    have e1' := e1
    rw [h2 _ (by simp)] at e1'
    obtain ⟨f1, _⟩ := file_record e1' (by rw [← e2]; exact hf)
    obtain ⟨p, g1, g2, g3⟩ := (h3 _ _ _).1 f1
    have hsrc : src (d ++ [e.name]) = m.hostPath := by simp only [src, e1]
    rw [hsrc]
    exact ⟨g3, p, m.hostEntry, g1, by rw [← e2]; exact hf, e3.symm, g2⟩
  refine ⟨src, pack_success ?_ ?_ hpack, ?_⟩
  · intro p n
    show (remapCopy t host.copy p 0 n).1.flatten.length ≤ n
    unfold remapCopy
    split
    · exact hb _ n
    all_goals simp
  · intro d e n he hf hcopy
    obtain ⟨_, p, he', g1, g2, g3, g4⟩ := key d e he hf
    obtain ⟨_, m, e1, e2, e3⟩ := overlay_entry h1 he
    have hsrc : src (d ++ [e.name]) = m.hostPath := by simp only [src, e1]
    have hcp : ∀ off size, (remapFs host t k).copy (d ++ [e.name]) off size = host.copy (p ++ [he'.name]) off size := by
      intro off size
      rw [← g4, hsrc]
      exact remapCopy_look h1 (by simp) e1 off size
    rw [hcp, ← g3] at hcopy
    rw [hcp]
    simp only
    rw [g4, ← g3]
    exact hc p he' n g1 g2 hcopy
  · intro d e he hf
    obtain ⟨a, p, he', b1, b2, _, b4⟩ := key d e he hf
    exact ⟨a, p, he', b1, b2, b4⟩

/-! ## C69: no mapped file is dropped -/

/-- C69, when no file is mapped to the root, to the same place as another entry of the host, or to a place below
which another entry is mapped: every file of the host to which the rules apply is listed by the overlay at the
place where the rules map it, with its length, and copying it copies that file.  The general statement is false,
see `C69_mapped_files_false`. -/
theorem C69_mapped_files_partial {G : GlobEngine} {rules : List Rule} {host : SourceFs} {fuel : Nat} {t : Trie MapEntry}
    (h : remapNew G rules host.readDir fuel = .ok t) (hnc : NoConflicts G rules host.readDir) {p : Path} {e : FileEntry}
    (he : EntryIn host.readDir p e) (hf : e.isDir = false) (hm : IsMapped G rules (p ++ [e.name])) {k : Nat}
    (hk : t.size ≤ k) :
    ∃ d n, MapsTo G rules (p ++ [e.name]) (d ++ [n]) ∧ EntryIn (remapFs host t k).readDir d ⟨n, false, e.len⟩ ∧
      ∀ off size, (remapFs host t k).copy (d ++ [n]) off size = host.copy (p ++ [e.name]) off size := by
  obtain ⟨hist, h1, h2, h3, h4⟩ := remapNew_spec h
  obtain ⟨q, hq⟩ := h4 p e he hm
  obtain ⟨hq0, hconf⟩ := hnc p e q he hf hq
  have hmem := (h3 _ e q).2 ⟨p, he, rfl, hq⟩
  have hfind : ∀ p', p' ≠ [] → p' <+: q → ∃ d' e' q', EntryIn host.readDir d' e' ∧ MapsTo G rules (d' ++ [e'.name]) q' ∧
      p' <+: q' ∧ Trie.look p' t = some (chainVal (d' ++ [e'.name]) e' q' p') := by
    intro p' h0 hp
    rw [h2 p' h0]
    unfold histLook
    cases hfd : hist.find? (fun x => decide (p' <+: x.2.2)) with
    | none =>
      have := List.find?_eq_none.1 hfd _ hmem
      simp only [decide_eq_true_eq] at this
      exact absurd hp this
    | some x =>
      obtain ⟨path, e', q'⟩ := x
      obtain ⟨d', g1, g2, g3⟩ := (h3 _ _ _).1 (List.mem_of_find?_eq_some hfd)
      have := List.find?_some hfd
      simp only [decide_eq_true_eq] at this
      subst g2
      exact ⟨d', e', q', g1, g3, this, rfl⟩
  have hlook : Trie.look q t = some ⟨p ++ [e.name], e, false⟩ := by
    obtain ⟨d', e', q', g1, g2, g3, g4⟩ := hfind q hq0 (List.prefix_refl _)
    by_cases hx : (d', e') = (p, e)
    · cases hx
      have := mapsTo_unique hq g2
      subst this
      rw [g4, chainVal, if_pos rfl]
    · exact absurd g3 (hconf d' e' q' g1 hx g2)
  have hdirs : ∀ p', p' ≠ [] → p' <+: q → p' ≠ q → ∃ m, Trie.look p' t = some m ∧ m.hostEntry.isDir = true := by
    intro p' h0 hp hne
    obtain ⟨d', e', q', g1, g2, g3, g4⟩ := hfind p' h0 hp
    refine ⟨_, g4, ?_⟩
    unfold chainVal
    split
    · rename_i hpq
      subst hpq
      simp only
      cases hd : e'.isDir with
      | true => rfl
      | false =>
        exfalso
        refine (hnc d' e' p' g1 hd g2).2 p e q he ?_ hq hp
        intro hx
        cases hx
        exact hne (mapsTo_unique g2 hq)
    · rfl
  obtain ⟨d, n, e1, e2⟩ := overlay_listed h1 hk _ q _ rfl hq0 hlook hdirs
  subst e1
  simp only [hf] at e2
  exact ⟨d, n, hq, e2, fun off size => remapCopy_look h1 (by simp) hlook off size⟩

/-- Nothing but the two files and the directory of the sample is mapped, and there is no conflict. -/
theorem sample_noConflicts : NoConflicts literalGlobs sampleRules sampleFs'.readDir := by
  have hmap : ∀ p e q, EntryIn sampleFs'.readDir p e → MapsTo literalGlobs sampleRules (p ++ [e.name]) q →
      (p, e, q) = ([], ⟨['A'], true, 0⟩, [['o'], ['A']]) ∨ (p, e, q) = ([], ⟨['b', '.', 't', 'x', 't'], false, 5⟩, [['B']]) ∨
      (p, e, q) = ([['A']], ⟨['c'], false, 3⟩, [['o'], ['A'], ['c']]) := by
    intro p e q he hq
    rcases (sample_entries p e).1 he with ⟨rfl, rfl⟩ | ⟨rfl, rfl⟩ | ⟨rfl, rfl⟩
    · left
      have : MapsTo literalGlobs sampleRules [['A']] [['o'], ['A']] := by
        refine ⟨[['A']], [], _, fun i => if i = 0 then some ['A'] else none, rfl, ?_, sample_selected,
          literal_matches.2 ⟨by decide, rfl⟩, by decide⟩
        refine ⟨⟨[], rfl⟩, by simp, ⟨_, List.mem_cons_self, literal_hits.2 (by decide)⟩, ?_⟩
        intro m' hm' hl
        have := hm'.length_le
        simp at this hl
        omega
      rw [mapsTo_unique hq this]
    · right; left
      have : MapsTo literalGlobs sampleRules [['b', '.', 't', 'x', 't']] [['B']] := by
        refine ⟨[['b', '.', 't', 'x', 't']], [], (['b', '.', 't', 'x', 't'], ['.', '/', 'B']), _, rfl, ?_, ?_,
          literal_matches.2 ⟨by decide, rfl⟩, by decide⟩
        · refine ⟨⟨[], rfl⟩, by simp, ⟨(['b', '.', 't', 'x', 't'], ['.', '/', 'B']), by simp [sampleRules], literal_hits.2 (by decide)⟩, ?_⟩
          intro m' hm' hl
          have := hm'.length_le
          simp at this hl
          omega
        · refine ⟨[], [(['A'], ['o', '/', '{', '0', '}'])], [], rfl, .inl rfl, ?_, by decide, literal_hits.2 (by decide), by simp⟩
          intro x hx
          rw [List.mem_singleton] at hx
          subst hx
          rw [literal_hits]; decide
      rw [mapsTo_unique hq this]
    · right; right
      rw [mapsTo_unique hq sample_mapsTo]
  intro p e q he hf hq
  rcases hmap p e q he hq with h | h | h
  · cases h; cases hf
  · cases h
    refine ⟨by simp, ?_⟩
    intro p' e' q' he' hne hq'
    rcases hmap p' e' q' he' hq' with h | h | h
    · cases h; decide
    · cases h; exact absurd rfl hne
    · cases h; decide
  · cases h
    refine ⟨by simp, ?_⟩
    intro p' e' q' he' hne hq'
    rcases hmap p' e' q' he' hq' with h | h | h
    · cases h; decide
    · cases h; decide
    · cases h; exact absurd rfl hne

/-- The hypotheses of C50 and C69 hold for the sample: the file `A/c` of the host is listed as `o/A/c`. -/
example : ∃ t k, remapNew literalGlobs sampleRules sampleFs'.readDir 10 = .ok t ∧ t.size ≤ k ∧
    EntryIn (remapFs sampleFs' t k).readDir [['o'], ['A']] ⟨['c'], false, 3⟩ := by
  obtain ⟨t, ht⟩ := sample_remaps
  obtain ⟨m, s, r, c, h1, h2, h3, _⟩ := id sample_mapsTo
  obtain ⟨d, n, e1, e2, _⟩ := C69_mapped_files_partial ht sample_noConflicts
    ((sample_entries [['A']] ⟨['c'], false, 3⟩).2 (.inr (.inr ⟨rfl, rfl⟩))) rfl ⟨m, r, h2, h3⟩ (Nat.le_refl _)
  have := mapsTo_unique e1 sample_mapsTo
  have := List.append_inj' (t₂ := [['c']]) (s₂ := [['o'], ['A']]) this rfl
  obtain ⟨rfl, hn⟩ := this
  cases hn
  exact ⟨t, _, ht, Nat.le_refl _, e2⟩

/-- Two files of the host mapped to the same place. -/
def conflictRules : List Rule := [(['a'], ['x']), (['b'], ['x'])]

set_option maxRecDepth 20000 in
/-- C69 is false in general: of two files mapped to the same place only the first is kept, without an error. -/
theorem C69_mapped_files_false : ∃ (rules : List Rule) (host : SourceFs) (t : Trie MapEntry),
    remapNew literalGlobs rules host.readDir 10 = .ok t ∧
    EntryIn host.readDir [] ⟨['b'], false, 1⟩ ∧ MapsTo literalGlobs rules [['b']] [['x']] ∧
    remapDump t 100 = .ok [([['a']], [['x']])] := by
  have hex : ∃ t, remapNew literalGlobs conflictRules (flatFs [(['a'], [1]), (['b'], [2])]).readDir 10 = .ok t := by
    rw [← isOk_iff]
    decide +kernel
  obtain ⟨t, ht⟩ := hex
  refine ⟨conflictRules, _, t, ht, (flat_entries _ _).2 ⟨rfl, (['b'], [2]), by simp, rfl⟩, ?_, ?_⟩
  · refine ⟨[['b']], [], (['b'], ['x']), _, rfl, ?_, ?_, literal_matches.2 ⟨by decide, rfl⟩, by decide⟩
    · refine ⟨⟨[], rfl⟩, by simp, ⟨(['b'], ['x']), by simp [conflictRules], literal_hits.2 (by decide)⟩, ?_⟩
      intro m' hm' hl
      have := hm'.length_le
      simp at this hl
      omega
    · refine ⟨[], [(['a'], ['x'])], [], rfl, .inl rfl, ?_, by decide, literal_hits.2 (by decide), by simp⟩
      intro x hx
      rw [List.mem_singleton] at hx
      subst hx
      rw [literal_hits]; decide
  · have : (do
        let t ← remapNew literalGlobs conflictRules (flatFs [(['a'], [1]), (['b'], [2])]).readDir 10
        remapDump t 100) = .ok [([['a']], [['x']])] := by decide +kernel
    rw [ht] at this
    exact this

end Xdvdfs.Props
