import Verif.Proof.Lookup
import Verif.Proof.FuseImg
import Verif.Proof.Host
import Verif.Props.Reader

/-!
# C136: different ways of writing a path
-/

namespace Xdvdfs.Props
open Xdvdfs Spec

theorem upper_cons {c : Char} {s t : Str} (h : SameName (c :: s) t) :
    ∃ c' t', t = c' :: t' ∧ (c = '/' ↔ c' = '/') ∧ asciiUpper c = asciiUpper c' ∧ SameName s t' := by
  cases t with
  | nil => simp [SameName, upper] at h
  | cons c' t' =>
    simp only [SameName, upper, List.map_cons, List.cons.injEq] at h
    have e : asciiUpper '/' = '/' := by decide
    refine ⟨c', t', rfl, ⟨?_, ?_⟩, h.1, h.2⟩
    · rintro rfl; exact asciiUpper_slash (by rw [← h.1, e])
    · rintro rfl; exact asciiUpper_slash (by rw [h.1, e])

theorem upper_nil {t : Str} (h : SameName [] t) : t = [] := by
  cases t with
  | nil => rfl
  | cons c t => simp [SameName, upper] at h

theorem splitSlash_same : ∀ {s t : Str}, SameName s t → SamePath (splitSlash s) (splitSlash t) := by
  intro s
  induction s with
  | nil => intro t h; rw [upper_nil h]; rfl
  | cons c s ih =>
    intro t h
    obtain ⟨c', t, rfl, h1, h2, h3⟩ := upper_cons h
    have := ih h3
    unfold splitSlash
    by_cases hc : c = '/'
    · rw [if_pos hc, if_pos (h1.1 hc), samePath_cons]; exact ⟨rfl, this⟩
    · rw [if_neg hc, if_neg (fun h => hc (h1.2 h))]
      cases e1 : splitSlash s with
      | nil => exact absurd e1 (splitSlash_ne_nil s)
      | cons a as =>
        cases e2 : splitSlash t with
        | nil => exact absurd e2 (splitSlash_ne_nil t)
        | cons b bs =>
          rw [e1, e2, samePath_cons] at this
          simp only
          rw [samePath_cons]
          refine ⟨?_, this.2⟩
          simp only [SameName, upper, List.map_cons, List.cons.injEq]
          exact ⟨h2, this.1⟩

theorem trimSlashes_same : ∀ {s t : Str}, SameName s t → SameName (trimSlashes s) (trimSlashes t) := by
  intro s
  induction s with
  | nil => intro t h; rw [upper_nil h]; rfl
  | cons c s ih =>
    intro t h
    obtain ⟨c', t, rfl, h1, h2, h3⟩ := upper_cons h
    by_cases hc : c = '/'
    · obtain rfl := h1.1 hc
      subst hc
      simp only [trimSlashes]
      exact ih h3
    · have hc' : c' ≠ '/' := fun h => hc (h1.2 h)
      have e {c : Char} {s : Str} (hc : c ≠ '/') : trimSlashes (c :: s) = c :: s := by
        unfold trimSlashes
        split
        · rename_i h; exact absurd (List.cons.inj h).1 hc
        · rfl
      rw [e hc, e hc']
      exact h

theorem samePath_length {p q : Path} (h : SamePath p q) : p.length = q.length := by
  have := congrArg List.length h
  simpa using this

theorem samePath_dropLast {p q : Path} (h : SamePath p q) : SamePath p.dropLast q.dropLast := by
  unfold SamePath at *
  rw [List.map_dropLast, List.map_dropLast, h]

theorem splitTerminator_same {s t : Str} (h : SameName s t) : SamePath (splitTerminator s) (splitTerminator t) := by
  have h1 := splitSlash_same h
  unfold splitTerminator
  simp only
  have e : (splitSlash s).getLast? = some [] ↔ (splitSlash t).getLast? = some [] := by
    have h2 := congrArg List.getLast? h1
    rw [List.getLast?_map, List.getLast?_map] at h2
    cases e1 : (splitSlash s).getLast? with
    | none => rw [e1] at h2; cases e2 : (splitSlash t).getLast? with
      | none => simp
      | some b => rw [e2] at h2; cases h2
    | some a =>
      rw [e1] at h2
      cases e2 : (splitSlash t).getLast? with
      | none => rw [e2] at h2; cases h2
      | some b =>
        rw [e2] at h2
        have h3 : upper a = upper b := Option.some.inj h2
        have h4 := congrArg List.length h3
        simp only [upper, List.length_map] at h4
        simp only [Option.some.injEq]
        rw [← List.length_eq_zero_iff, ← List.length_eq_zero_iff (l := b), h4]
  by_cases hs : (splitSlash s).getLast? = some []
  · rw [if_pos hs, if_pos (e.1 hs)]; exact samePath_dropLast h1
  · rw [if_neg hs, if_neg (fun h => hs (e.2 h))]; exact h1

theorem walkSegments_same {dev : Dev} {fuel : Nat} : ∀ {p q : Path} (tab : Region), SamePath p q →
    walkSegments dev fuel tab p = walkSegments dev fuel tab q := by
  intro p
  induction p with
  | nil =>
    intro q tab h
    cases q with
    | nil => rfl
    | cons _ _ => simp [SamePath] at h
  | cons a p ih =>
    intro q tab h
    cases q with
    | nil => simp [SamePath] at h
    | cons b q =>
      rw [samePath_cons] at h
      unfold walkSegments
      rw [findDirent_congr h.1]
      have : p = [] ↔ q = [] := by
        rw [← List.length_eq_zero_iff, ← List.length_eq_zero_iff, samePath_length h.2]
      congr 1; funext d
      by_cases hp : p = []
      · rw [if_pos hp, if_pos (this.1 hp)]
      · rw [if_neg hp, if_neg (fun h => hp (this.2 h))]
        congr 1; funext t
        exact ih t h.2

/-- **C136** (letter case).  On any image, looking up a path gives the same for any letter case of its ASCII letters. -/
theorem C136_letter_case (dev : Dev) (tab : Region) {s t : Str} (h : SameName s t) (fuel : Nat) :
    walkPath dev tab s fuel = walkPath dev tab t fuel := by
  unfold walkPath
  have e : (s = [] ∨ s = ['/']) ↔ (t = [] ∨ t = ['/']) := by
    cases s with
    | nil => rw [upper_nil h]
    | cons c s =>
      obtain ⟨c', t, rfl, h1, _, h3⟩ := upper_cons h
      have : s = [] ↔ t = [] := by
        have := congrArg List.length h3
        simp only [upper, List.length_map] at this
        rw [← List.length_eq_zero_iff, ← List.length_eq_zero_iff (l := t), this]
      simp [h1, this]
  by_cases hs : s = [] ∨ s = ['/']
  · rw [if_pos hs, if_pos (e.1 hs)]
  · rw [if_neg hs, if_neg (fun h => hs (e.2 h))]
    exact walkSegments_same tab (splitTerminator_same (trimSlashes_same h))

theorem trim_leading (k : Nat) (s : Str) : trimSlashes (List.replicate k '/' ++ s) = trimSlashes s := by
  induction k with
  | zero => rfl
  | succ k ih => rw [List.replicate_succ, List.cons_append, trimSlashes, ih]

/-- **C136** (slashes in front).  On any image, looking up a path that names something gives the same with any number of
slashes in front of it. -/
theorem C136_leading_slashes (dev : Dev) (tab : Region) {s : Str} (hs : ¬ OnlySlashes s) (k fuel : Nat) :
    walkPath dev tab (List.replicate k '/' ++ s) fuel = walkPath dev tab s fuel := by
  unfold walkPath
  obtain ⟨c, hc, hn⟩ : ∃ c ∈ s, c ≠ '/' := by
    refine Decidable.byContradiction fun h => hs ?_
    intro c hc
    exact Decidable.byContradiction fun h' => h ⟨c, hc, h'⟩
  have e {t : Str} (ht : c ∈ t) : ¬ (t = [] ∨ t = ['/']) := by
    rintro (rfl | rfl)
    · simp at ht
    · simp at ht; exact hn ht
  rw [if_neg (e hc), if_neg (e (by simp [hc])), trim_leading]

theorem splitSlash_last_char {c : Char} (hc : c ≠ '/') : ∀ (t : Str), (splitSlash (t ++ [c])).getLast? ≠ some [] := by
  intro t
  induction t with
  | nil => simp [splitSlash, hc]
  | cons a t ih =>
    rw [List.cons_append, splitSlash]
    by_cases ha : a = '/'
    · rw [if_pos ha]
      cases e : splitSlash (t ++ [c]) with
      | nil => exact absurd e (splitSlash_ne_nil _)
      | cons x xs => rw [e] at ih; rw [List.getLast?_cons_cons]; exact ih
    · rw [if_neg ha]
      cases e : splitSlash (t ++ [c]) with
      | nil => exact absurd e (splitSlash_ne_nil _)
      | cons x xs =>
        rw [e] at ih
        simp only
        cases xs with
        | nil => simp
        | cons y ys => rw [List.getLast?_cons_cons] at ih ⊢; exact ih

/-- **C136** (a slash at the end).  On any image, looking up a path that does not end in a slash gives the same with a slash at
its end. -/
theorem C136_trailing_slash (dev : Dev) (tab : Region) (s : Str) {c : Char} (hc : c ≠ '/') (fuel : Nat) :
    walkPath dev tab (s ++ [c] ++ ['/']) fuel = walkPath dev tab (s ++ [c]) fuel := by
  have trim : ∀ (s r : Str), ∃ u, trimSlashes (s ++ [c] ++ r) = u ++ [c] ++ r ∧ trimSlashes (s ++ [c]) = u ++ [c] := by
    intro s r
    induction s with
    | nil =>
      refine ⟨[], ?_, ?_⟩
      · simp only [List.nil_append, List.singleton_append]
        unfold trimSlashes; split
        · rename_i h; exact absurd (List.cons.inj h).1 hc
        · rfl
      · simp only [List.nil_append]
        unfold trimSlashes; split
        · rename_i h; exact absurd (List.cons.inj h).1 hc
        · rfl
    | cons a s ih =>
      by_cases ha : a = '/'
      · subst ha
        obtain ⟨u, h1, h2⟩ := ih
        exact ⟨u, by simpa [trimSlashes] using h1, by simpa [trimSlashes] using h2⟩
      · refine ⟨a :: s, ?_, ?_⟩
        · simp only [List.cons_append]
          unfold trimSlashes; split
          · rename_i h; exact absurd (List.cons.inj h).1 ha
          · rfl
        · simp only [List.cons_append]
          unfold trimSlashes; split
          · rename_i h; exact absurd (List.cons.inj h).1 ha
          · rfl
  obtain ⟨u, h1, h2⟩ := trim s ['/']
  unfold walkPath
  have e {r : Str} : ¬ (s ++ [c] ++ r = [] ∨ s ++ [c] ++ r = ['/']) := by
    rintro (h | h)
    · simp at h
    · have : c ∈ s ++ [c] ++ r := by simp
      rw [h] at this; simp at this; exact hc this
  have e' := e (r := [])
  rw [List.append_nil] at e'
  rw [if_neg e, if_neg e', h1, h2]
  congr 1
  unfold splitTerminator
  simp only
  rw [show u ++ [c] ++ ['/'] = (u ++ [c]) ++ '/' :: [] by simp, splitSlash_join]
  rw [if_neg (splitSlash_last_char hc u)]
  simp [splitSlash]

/-- The hypotheses hold for `a/B`: it may be written `//A/b/`. -/
example (dev : Dev) (tab : Region) (fuel : Nat) :
    walkPath dev tab ['/', '/', 'A', '/', 'b', '/'] fuel = walkPath dev tab ['a', '/', 'B'] fuel := by
  have h1 := C136_trailing_slash dev tab ['/', '/', 'A', '/'] (c := 'b') (by decide) fuel
  have h2 := C136_leading_slashes dev tab (s := ['A', '/', 'b']) (by unfold OnlySlashes; decide) 2 fuel
  have h3 := C136_letter_case dev tab (s := ['A', '/', 'b']) (t := ['a', '/', 'B']) (by decide) fuel
  exact h1.trans (h2.trans h3)

end Xdvdfs.Props
