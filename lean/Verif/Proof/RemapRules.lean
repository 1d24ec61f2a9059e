import Verif.Proof.RemapPattern

/-!
# Proofs about which rule applies
-/

namespace Xdvdfs

open Spec

theorem slashPath_join : ∀ {p : Path}, p ≠ [] → slashPath p = '/' :: joinSlash p := by
  intro p
  induction p with
  | nil => intro h; exact absurd rfl h
  | cons c cs ih =>
    intro _
    cases cs with
    | nil => simp [slashPath, joinSlash]
    | cons d ds =>
      have := ih (by simp)
      rw [joinSlash]
      · unfold slashPath at this ⊢
        rw [List.flatMap_cons, this]; rfl
      · simp

theorem candidate_eq (p : Path) : candidate p = relativeText p := by
  unfold candidate relativeText
  rw [trimSlashes_eq_dropWhile]
  cases p with
  | nil => simp [pathAsString, joinSlash, slashPath]
  | cons c cs => rw [slashPath_join (by simp)]; rfl

/-- The rules as built correspond to the rules as written. -/
def Built (G : GlobEngine) (r : Rule) (b : BuiltRule) : Prop :=
  r = (b.lhs, b.rhs) ∧ G (ruleGlob r) = some b.glob

theorem buildRules_ok {G : GlobEngine} : ∀ {cfg : List Rule} {rules : List BuiltRule}, buildRules G cfg = .ok rules →
    rules.map (fun b => (b.lhs, b.rhs)) = cfg ∧ ∀ b ∈ rules, G (ruleGlob (b.lhs, b.rhs)) = some b.glob := by
  intro cfg
  induction cfg with
  | nil => intro rules h; cases h; simp
  | cons r cfg ih =>
    obtain ⟨lhs, rhs⟩ := r
    intro rules h
    simp only [buildRules] at h
    cases hg : G (trimStart '!' lhs) with
    | none => rw [hg] at h; cases h
    | some g =>
      rw [hg] at h
      obtain ⟨rest, h1, h2⟩ := Res.bind_eq_ok.1 h
      cases h2
      obtain ⟨i1, i2⟩ := ih h1
      refine ⟨by simp [i1], ?_⟩
      intro b hb
      rcases List.mem_cons.1 hb with rfl | hb
      · simp only [ruleGlob, ← trimStart_eq_dropWhile]; exact hg
      · exact i2 b hb

theorem hits_built {G : GlobEngine} {b : BuiltRule} (hb : G (ruleGlob (b.lhs, b.rhs)) = some b.glob) (p : Path)
    (caps : Captures) : Matches G (b.lhs, b.rhs) p caps ↔ b.glob (candidate p) = some caps := by
  unfold Matches
  rw [hb, candidate_eq]
  simp

/-- Nothing is selected, in a form that is easy to extend. -/
def Unselected (G : GlobEngine) (rules : List Rule) (p : Path) : Prop :=
  ∃ before skipped, rules = before ++ skipped ∧
    (before = [] ∨ ∃ b x, before = b ++ [x] ∧ Exclusion x ∧ Hits G x p) ∧ ∀ x ∈ skipped, ¬ Hits G x p

theorem unselected_not {G : GlobEngine} {rules : List Rule} {p : Path} (h : Unselected G rules p) (y : Rule) :
    ¬ SelectedRule G rules p y := by
  obtain ⟨before, skipped, h1, h2, h3⟩ := h
  rintro ⟨b, s, a, k1, _, _, k4, k5, k6⟩
  rw [h1] at k1
  rcases List.append_eq_append_iff.1 k1 with ⟨c, e1, e2⟩ | ⟨c, e1, e2⟩
  · exact h3 y (by rw [e2]; simp) k5
  · cases c with
    | nil => exact h3 y (by simp at e2; rw [← e2]; simp) k5
    | cons z c =>
      simp only [List.cons_append, List.cons.injEq] at e2
      obtain ⟨rfl, e2⟩ := e2
      rcases h2 with h2 | ⟨b', x, h2, hx1, hx2⟩
      · rw [h2] at e1; simp at e1
      · rw [h2] at e1
        rcases List.eq_nil_or_concat c with hc | ⟨c', w, hc⟩
        · subst hc
          have := List.append_inj_right' e1 rfl
          simp only [List.cons.injEq, and_true] at this
          subst this; exact k4 hx1
        · have e1' : b' ++ [x] = (b ++ s ++ y :: c') ++ [w] := by rw [e1, hc]; simp
          have := List.append_inj_right' e1' rfl
          simp only [List.cons.injEq, and_true] at this
          subst this
          exact k6 x (by rw [e2, hc]; simp) hx1 hx2

theorem selected_snoc_skip {G : GlobEngine} {rules : List Rule} {p : Path} {r x : Rule}
    (hr : Exclusion r → ¬ Hits G r p) (h : SelectedRule G rules p x) : SelectedRule G (rules ++ [r]) p x := by
  obtain ⟨b, s, a, h1, h2, h3, h4, h5, h6⟩ := h
  refine ⟨b, s, a ++ [r], by rw [h1]; simp, h2, h3, h4, h5, ?_⟩
  intro y hy
  rcases List.mem_append.1 hy with hy | hy
  · exact h6 y hy
  · rw [List.mem_singleton] at hy; subst hy; exact hr

theorem selected_snoc_new {G : GlobEngine} {rules : List Rule} {p : Path} {r : Rule}
    (h : Unselected G rules p) (h1 : ¬ Exclusion r) (h2 : Hits G r p) : SelectedRule G (rules ++ [r]) p r := by
  obtain ⟨b, s, k1, k2, k3⟩ := h
  exact ⟨b, s, [], by rw [k1], k2, k3, h1, h2, by simp⟩

theorem unselected_snoc_skip {G : GlobEngine} {rules : List Rule} {p : Path} {r : Rule}
    (hr : ¬ Hits G r p) (h : Unselected G rules p) : Unselected G (rules ++ [r]) p := by
  obtain ⟨b, s, k1, k2, k3⟩ := h
  refine ⟨b, s ++ [r], by rw [k1]; simp, k2, ?_⟩
  intro y hy
  rcases List.mem_append.1 hy with hy | hy
  · exact k3 y hy
  · rw [List.mem_singleton] at hy; subst hy; exact hr

theorem unselected_snoc_excl {G : GlobEngine} {rules : List Rule} {p : Path} {r : Rule}
    (h1 : Exclusion r) (h2 : Hits G r p) : Unselected G (rules ++ [r]) p :=
  ⟨rules ++ [r], [], by simp, .inr ⟨rules, r, rfl, h1, h2⟩, by simp⟩

/-- Only one rule is selected. -/
theorem selected_unique {G : GlobEngine} {rules : List Rule} {p : Path} {x y : Rule}
    (hx : SelectedRule G rules p x) (hy : SelectedRule G rules p y) : x = y := by
  obtain ⟨b1, s1, a1, h1, h2, h3, h4, h5, h6⟩ := hx
  obtain ⟨b2, s2, a2, k1, k2, k3, k4, k5, k6⟩ := hy
  have key : ∀ (b1 s1 a1 b2 s2 a2 c : List Rule) (x y : Rule), b2 ++ s2 = (b1 ++ s1) ++ x :: c → a1 = c ++ y :: a2 →
      ¬ Exclusion x → Hits G x p → (∀ z ∈ a1, Exclusion z → ¬ Hits G z p) →
      (b2 = [] ∨ ∃ b z, b2 = b ++ [z] ∧ Exclusion z ∧ Hits G z p) → (∀ z ∈ s2, ¬ Hits G z p) → False := by
    intro b1 s1 a1 b2 s2 a2 c x y e1 e2 hx hh ha hb hs
    rcases List.append_eq_append_iff.1 e1 with ⟨d, f1, f2⟩ | ⟨d, f1, f2⟩
    · exact hs x (by rw [f2]; simp) hh
    · cases d with
      | nil => exact hs x (by simp at f2; rw [← f2]; simp) hh
      | cons z d =>
        simp only [List.cons_append, List.cons.injEq] at f2
        obtain ⟨rfl, f2⟩ := f2
        rcases hb with hb | ⟨b', w, hb, hw1, hw2⟩
        · rw [hb] at f1; simp at f1
        · rw [hb] at f1
          rcases List.eq_nil_or_concat d with hd | ⟨d', v, hd⟩
          · subst hd
            have := List.append_inj_right' f1 rfl
            simp only [List.cons.injEq, and_true] at this
            subst this; exact hx hw1
          · have f1' : b' ++ [w] = (b1 ++ s1 ++ x :: d') ++ [v] := by rw [f1, hd]; simp
            have := List.append_inj_right' f1' rfl
            simp only [List.cons.injEq, and_true] at this
            subst this
            exact ha w (by rw [e2, f2, hd]; simp) hw1 hw2
  rw [h1] at k1
  rcases List.append_eq_append_iff.1 k1 with ⟨c, e1, e2⟩ | ⟨c, e1, e2⟩
  · cases c with
    | nil => simp only [List.nil_append, List.cons.injEq] at e2; exact e2.1
    | cons z c =>
      simp only [List.cons_append, List.cons.injEq] at e2
      obtain ⟨rfl, e2⟩ := e2
      exact (key b1 s1 a1 b2 s2 a2 c x y e1 e2 h4 h5 h6 k2 k3).elim
  · cases c with
    | nil => simp only [List.nil_append, List.cons.injEq] at e2; exact e2.1.symm
    | cons z c =>
      simp only [List.cons_append, List.cons.injEq] at e2
      obtain ⟨rfl, e2⟩ := e2
      exact (key b2 s2 a2 b1 s1 a1 c y x e1 e2 k4 k5 k6 h2 h3).elim

theorem evalRules_append (pre suffix : Path) (r : BuiltRule) : ∀ (rs : List BuiltRule) (cur : Option Path),
    evalRules pre suffix (rs ++ [r]) cur = (do
      let c ← evalRules pre suffix rs cur
      evalRules pre suffix [r] c) := by
  intro rs
  induction rs with
  | nil => intro cur; rfl
  | cons x rs ih =>
    intro cur
    simp only [List.cons_append, evalRules]
    cases x.glob (candidate pre) with
    | none => exact ih cur
    | some caps =>
      simp only
      split
      · exact ih none
      · split
        · exact ih cur
        · cases rewriteTarget x.rhs caps suffix with
          | ok q => exact ih (some q)
          | err e => rfl
          | panic => rfl
          | hang => rfl

/-- The outcome of evaluating the rules. -/
def Outcome (G : GlobEngine) (rules : List Rule) (pre suffix : Path) : Option Path → Prop
  | none => Unselected G rules pre
  | some q => ∃ r caps, SelectedRule G rules pre r ∧ Matches G r pre caps ∧ rewriteTarget r.2 caps suffix = .ok q

theorem evalRules_spec {G : GlobEngine} {pre suffix : Path} : ∀ (n : Nat) (rules : List BuiltRule), rules.length = n →
    (∀ b ∈ rules, G (ruleGlob (b.lhs, b.rhs)) = some b.glob) → ∀ o, evalRules pre suffix rules none = .ok o →
    Outcome G (rules.map (fun b => (b.lhs, b.rhs))) pre suffix o := by
  intro n
  induction n with
  | zero =>
    intro rules hl _ o h
    have : rules = [] := List.eq_nil_of_length_eq_zero hl
    subst this
    cases h
    exact ⟨[], [], rfl, .inl rfl, by simp⟩
  | succ n ih =>
    intro rules hl hb o h
    rcases List.eq_nil_or_concat rules with h0 | ⟨rs, r, h0⟩
    · rw [h0] at hl; simp at hl
    · rw [List.concat_eq_append] at h0
      subst h0
      rw [evalRules_append] at h
      obtain ⟨c, h1, h2⟩ := Res.bind_eq_ok.1 h
      have ihc := ih rs (by simpa using hl) (fun b hb' => hb b (by simp [hb'])) c h1
      have hr := hits_built (hb r (by simp)) pre
      rw [List.map_append, List.map_cons, List.map_nil]
      generalize hR : rs.map (fun b => (b.lhs, b.rhs)) = R at ihc ⊢
      simp only [evalRules] at h2
      cases hg : r.glob (candidate pre) with
      | none =>
        rw [hg] at h2; cases h2
        have hno : ¬ Hits G (r.lhs, r.rhs) pre := by
          rintro ⟨caps, hc⟩; rw [hr, hg] at hc; cases hc
        cases o with
        | none => exact unselected_snoc_skip hno ihc
        | some q =>
          obtain ⟨x, caps, k1, k2, k3⟩ := ihc
          exact ⟨x, caps, selected_snoc_skip (fun _ => hno) k1, k2, k3⟩
      | some caps =>
        rw [hg] at h2
        simp only at h2
        have hhit : Matches G (r.lhs, r.rhs) pre caps := (hr caps).2 hg
        by_cases he : r.lhs.head? = some '!'
        · rw [if_pos he] at h2; cases h2
          exact unselected_snoc_excl he ⟨caps, hhit⟩
        · rw [if_neg he] at h2
          cases c with
          | some q =>
            simp only [Option.isSome_some, if_true] at h2; cases h2
            obtain ⟨x, caps', k1, k2, k3⟩ := ihc
            exact ⟨x, caps', selected_snoc_skip (fun hx => absurd hx he) k1, k2, k3⟩
          | none =>
            simp only [Option.isSome_none, Bool.false_eq_true, if_false] at h2
            obtain ⟨q, k1, k2⟩ := Res.bind_eq_ok.1 h2
            cases k2
            exact ⟨(r.lhs, r.rhs), caps, selected_snoc_new ihc he ⟨caps, hhit⟩, hhit, k1⟩

theorem matches_unique {G : GlobEngine} {r : Rule} {p : Path} {c c' : Captures} (h : Matches G r p c)
    (h' : Matches G r p c') : c = c' := by
  obtain ⟨g, h1, h2⟩ := h
  obtain ⟨g', h1', h2'⟩ := h'
  rw [h1] at h1'; cases h1'
  rw [h2] at h2'; cases h2'
  rfl

theorem matchPoint_unique {G : GlobEngine} {rules : List Rule} {p m m' : Path} (h : MatchPoint G rules p m)
    (h' : MatchPoint G rules p m') : m = m' := by
  obtain ⟨h1, h2, ⟨r, h3, h3'⟩, h4⟩ := h
  obtain ⟨k1, k2, ⟨r', k3, k3'⟩, k4⟩ := h'
  have e : m.length = m'.length := by
    rcases Nat.lt_trichotomy m.length m'.length with hl | hl | hl
    · exact absurd k3' (h4 m' k1 hl r' k3)
    · exact hl
    · exact absurd h3' (k4 m h1 hl r h3)
  exact (List.prefix_of_prefix_length_le h1 k1 (by omega)).eq_of_length e

theorem mapsTo_unique {G : GlobEngine} {rules : List Rule} {p q q' : Path} (h : MapsTo G rules p q)
    (h' : MapsTo G rules p q') : q = q' := by
  obtain ⟨m, s, r, c, h1, h2, h3, h4, h5⟩ := h
  obtain ⟨m', s', r', c', k1, k2, k3, k4, k5⟩ := h'
  have := matchPoint_unique h2 k2
  subst this
  have := selected_unique h3 k3
  subst this
  have := matches_unique h4 k4
  subst this
  rw [h1] at k1
  have := List.append_cancel_left k1
  subst this
  rw [h5] at k5; cases k5; rfl

end Xdvdfs
