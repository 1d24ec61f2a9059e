import Verif.Proof.Trie
import Verif.Proof.ImgRead

/-! # C41-C43, C60: the path index and path values -/

namespace Xdvdfs.Props

open Spec

/-! ## C41: the path index is a map -/

/-- C41: after any history of insertions, looking up a path gives the value of the first insertion
of that name under that directory, and nothing if there was none. -/
theorem C41_index_is_map {α : Type} (h : List (Insertion α)) (hl : Latin1History h) :
    ∃ t, runInsertions h Trie.empty = .ok t ∧
      ∀ p, p ≠ [] → Latin1Path p → t.get p = .ok (lookupPath p (indexAfter h)) := by
  obtain ⟨t, h1, h2⟩ := Trie.runInsertions_rep h Trie.empty [] hl Trie.rep_empty
  refine ⟨t, h1, ?_⟩
  intro p h0 hp
  rw [Trie.get_eq h2.1 hp h0, h2.2 p h0]
  rfl

/-- C41: inserting one name into a directory of the index changes no other path, and a path that
was present keeps its value. -/
theorem C41_insert_changes_nothing_else {α : Type} (h : List (Insertion α)) (hl : Latin1History h)
    {t : Trie α} (ht : runInsertions h Trie.empty = .ok t) {dir : Path} {n : Str} (hd : Latin1Path dir)
    (hn : Latin1 n) (v : α) (hdir : HasDir (indexAfter h) dir) :
    ∃ t', t.insertAt dir n v = .ok (some t') ∧
      (∀ p, p ≠ [] → Latin1Path p → p ≠ dir ++ [n] → t'.get p = t.get p) ∧
      (t.get (dir ++ [n]) = .ok none → t'.get (dir ++ [n]) = .ok (some v)) ∧
      (∀ w, t.get (dir ++ [n]) = .ok (some w) → t'.get (dir ++ [n]) = .ok (some w)) := by
  obtain ⟨t0, h1, h2⟩ := Trie.runInsertions_rep h Trie.empty [] hl Trie.rep_empty
  cases ht.symm.trans h1
  have hlat : Latin1Path (dir ++ [n]) := by
    intro s hs
    rcases List.mem_append.1 hs with hs | hs
    · exact hd s hs
    · rw [List.mem_singleton] at hs; subst hs; exact hn
  have hpres : dir = [] ∨ Trie.look dir t ≠ none := by
    by_cases h0 : dir = []
    · exact .inl h0
    · right
      rw [h2.2 dir h0]
      intro hc
      rcases hdir with hd | hd
      · exact h0 hd
      · exact Trie.lookupPath_none.1 hc hd
  obtain ⟨t', j1, j2, j3⟩ := (Trie.insertAt_spec h2.1 hd hn v).2 hpres
  refine ⟨t', j1, ?_, ?_, ?_⟩
  · intro p h0 hp hne
    rw [Trie.get_eq j2 hp h0, Trie.get_eq h2.1 hp h0, j3, if_neg (fun h => hne h.1)]
  · intro hg
    rw [Trie.get_eq h2.1 hlat (by simp)] at hg
    rw [Trie.get_eq j2 hlat (by simp), j3, if_pos ⟨rfl, by simpa using hg⟩]
  · intro w hg
    rw [Trie.get_eq h2.1 hlat (by simp)] at hg
    have hg' : Trie.look (dir ++ [n]) t = some w := by simpa using hg
    rw [Trie.get_eq j2 hlat (by simp), j3, if_neg (by rw [hg']; simp), hg']

/-- A directory with two names, one a prefix of the other, a file inside, and a repeated insertion:
the first one wins. -/
def sampleHistory : List (Insertion Nat) :=
  [([], "ab".toList, 1), ([], "a".toList, 2), (["a".toList], "x".toList, 3), ([], "ab".toList, 4),
    (["zz".toList], "y".toList, 5)]

theorem sampleHistory_latin1 : Latin1History sampleHistory := by
  unfold Latin1History sampleHistory Latin1Path Latin1
  decide

example : indexAfter sampleHistory = [(["ab".toList], 1), (["a".toList], 2),
    (["a".toList, "x".toList], 3), (["ab".toList], 4)] := by decide

example : ∃ t, runInsertions sampleHistory Trie.empty = .ok t ∧ t.get ["ab".toList] = .ok (some 1) ∧
    t.get ["a".toList, "x".toList] = .ok (some 3) ∧ t.get ["zz".toList, "y".toList] = .ok none := by
  obtain ⟨t, h1, h2⟩ := C41_index_is_map sampleHistory sampleHistory_latin1
  refine ⟨t, h1, ?_, ?_, ?_⟩ <;> rw [h2 _ (by simp) (by unfold Latin1Path Latin1; decide)] <;> decide

/-! ## C42: iteration -/

/-- C42: after any history of insertions, a directory of the index can be iterated, which yields
each name inserted into it exactly once, with the value of its first insertion, and nothing else; a
directory that was not inserted is reported missing. -/
theorem C42_iteration_complete {α : Type} (h : List (Insertion α)) (hl : Latin1History h) {t : Trie α}
    (ht : runInsertions h Trie.empty = .ok t) {dir : Path} (hd : Latin1Path dir) :
    (¬ HasDir (indexAfter h) dir → t.lookupSubdir dir = .ok none) ∧
    (HasDir (indexAfter h) dir → ∃ sub items bound, t.lookupSubdir dir = .ok (some sub) ∧
      (∀ fuel, bound ≤ fuel → sub.iter fuel = .ok items) ∧ (items.map Prod.fst).Nodup ∧
      ∀ n v, (n, v) ∈ items ↔ lookupPath (dir ++ [n]) (indexAfter h) = some v) := by
  obtain ⟨t0, h1, h2⟩ := Trie.runInsertions_rep h Trie.empty [] hl Trie.rep_empty
  cases ht.symm.trans h1
  have hlk : dir ≠ [] → (Trie.subAt dir t).isSome = (lookupPath dir (indexAfter h)).isSome := by
    intro h0; rw [Trie.subAt_isSome h0, h2.2 dir h0]; rfl
  rw [Trie.lookupSubdir_eq h2.1 hd]
  constructor
  · intro hn
    have h0 : dir ≠ [] := fun h => hn (.inl h)
    have : lookupPath dir (indexAfter h) = none := Trie.lookupPath_none.2 (fun h => hn (.inr h))
    have hs := hlk h0
    rw [this] at hs
    cases hsub : Trie.subAt dir t with
    | none => rfl
    | some _ => rw [hsub] at hs; cases hs
  · intro hh
    have : ∃ sub, Trie.subAt dir t = some sub := by
      by_cases h0 : dir = []
      · subst h0; exact ⟨t, rfl⟩
      · have hne : lookupPath dir (indexAfter h) ≠ none := by
          intro hc
          rcases hh with hh | hh
          · exact h0 hh
          · exact Trie.lookupPath_none.1 hc hh
        have := (hlk h0).trans (Option.isSome_iff_ne_none.2 hne)
        exact Option.isSome_iff_exists.1 this
    obtain ⟨sub, hsub⟩ := this
    obtain ⟨items, i1, i2, i3⟩ := Trie.iter_spec (Trie.subAt_wf h2.1 hsub)
    refine ⟨sub, items, sizeOf sub, by rw [hsub], i1, i3, ?_⟩
    intro n v
    rw [i2, ← Trie.look_append hsub [n] (by simp), h2.2 _ (by simp)]
    rfl

example : ∃ t sub items bound, runInsertions sampleHistory Trie.empty = .ok t ∧
    t.lookupSubdir [] = .ok (some sub) ∧ (∀ fuel, bound ≤ fuel → sub.iter fuel = .ok items) ∧
    ("ab".toList, 1) ∈ items ∧ ("a".toList, 2) ∈ items ∧ ("x".toList, 3) ∉ items := by
  obtain ⟨t, h1, _⟩ := C41_index_is_map sampleHistory sampleHistory_latin1
  obtain ⟨sub, items, bound, h2, h3, _, h5⟩ :=
    (C42_iteration_complete sampleHistory sampleHistory_latin1 h1 (dir := []) (by intro s hs; cases hs)).2 (.inl rfl)
  refine ⟨t, sub, items, bound, h1, h2, h3, (h5 _ _).2 (by decide), (h5 _ _).2 (by decide), ?_⟩
  intro hm
  have := (h5 _ _).1 hm
  revert this
  decide

/-! ## C43: names above U+00FF -/

/-- C43 is false: a name that a directory entry can carry (the single byte `0x80`, the euro sign)
panics on insertion and on lookup. -/
theorem C43_names_false : ¬ ∀ (name : Bytes), name.length ≤ 255 →
    ((Trie.empty : Trie Nat).insertTail (decodeName name) 0).Returns ∧
      ((Trie.empty : Trie Nat).get [decodeName name]).Returns := by
  intro h
  have hp : (Trie.empty : Trie Nat).insertTail (decodeName [0x80]) 0 = .panic := by
    have hd : decodeName [0x80] = ['€'] := by decide
    rw [hd]
    simp only [Trie.insertTail, Trie.empty, Trie.insertTailWith]
    rw [List.getElem?_eq_none (by rw [List.length_replicate]; decide)]
  exact (h [0x80] (by decide)).1.1 hp

set_option maxRecDepth 4000 in
theorem decodeByte_latin1 (b : UInt8) : (b < 0x80 ∨ 0x9f < b) → (decodeByte b).toNat < 256 := by
  obtain ⟨⟨k⟩⟩ := b
  revert k
  decide +kernel

/-- C43, for names without a byte between `0x80` and `0x9f`: insertion and lookup always return. -/
theorem C43_names_partial {α : Type} (h : List (Insertion α)) (hl : Latin1History h) {t : Trie α}
    (ht : runInsertions h Trie.empty = .ok t) (name : Bytes) (hb : ∀ b ∈ name, b < 0x80 ∨ 0x9f < b)
    {dir : Path} (hd : Latin1Path dir) (v : α) :
    (t.insertAt dir (decodeName name) v).Returns ∧ (t.get (dir ++ [decodeName name])).Returns := by
  obtain ⟨t0, h1, h2⟩ := Trie.runInsertions_rep h Trie.empty [] hl Trie.rep_empty
  cases ht.symm.trans h1
  have hn : Latin1 (decodeName name) := by
    intro c hc
    obtain ⟨b, hb', rfl⟩ := List.mem_map.1 hc
    exact decodeByte_latin1 b (hb b hb')
  have hlat : Latin1Path (dir ++ [decodeName name]) := by
    intro s hs
    rcases List.mem_append.1 hs with hs | hs
    · exact hd s hs
    · rw [List.mem_singleton] at hs; subst hs; exact hn
  obtain ⟨i1, i2⟩ := Trie.insertAt_spec h2.1 hd hn v
  constructor
  · by_cases hp : dir = [] ∨ Trie.look dir t ≠ none
    · obtain ⟨t', j1, _⟩ := i2 hp
      rw [j1]; exact ⟨by simp, by simp⟩
    · rw [i1 (fun h => hp (.inl h)) (Classical.byContradiction fun h => hp (.inr h))]
      exact ⟨by simp, by simp⟩
  · rw [Trie.get_eq h2.1 hlat (by simp)]
    exact ⟨by simp, by simp⟩

/-- The hypotheses are met by the name `é` (byte `0xe9`). -/
example : (∀ b ∈ ([0xe9, 0x41] : Bytes), b < 0x80 ∨ 0x9f < b) ∧ Latin1History ([] : List (Insertion Nat)) ∧
    runInsertions ([] : List (Insertion Nat)) Trie.empty = .ok Trie.empty ∧ Latin1Path [] :=
  ⟨by decide, (by intro x hx; cases hx), rfl, (by intro s hs; cases hs)⟩

/-! ## C60: path values -/

/-- C60: appending a component and taking the base gives the path back; the new path is not the
root. -/
theorem C60_base_of_append (p : Path) (n : Str) :
    pathBase (fromBase p n) = .ok p ∧ Path.isRoot (fromBase p n) = false := by
  simp [pathBase, fromBase, Path.isRoot]

theorem pathSuffix_nil (r : Path) : pathSuffix r [] = .ok r := by
  induction r with
  | nil => rfl
  | cons c cs ih => simp only [pathSuffix, ih]; rfl

/-- C60: removing the prefix from a path that extends it gives the remainder. -/
theorem C60_suffix_of_extension (p r : Path) : pathSuffix (p ++ r) p = .ok r := by
  induction p with
  | nil => exact pathSuffix_nil r
  | cons c cs ih => simp [pathSuffix, ih]

/-- C60: removing a prefix panics exactly if the two paths differ in a common position. -/
theorem C60_suffix_result (p q : Path) :
    (∃ r, p = q ++ r ∧ pathSuffix p q = .ok r) ∨ (p <+: q ∧ pathSuffix p q = .ok []) ∨
    (¬ p <+: q ∧ ¬ q <+: p ∧ pathSuffix p q = .panic) := by
  induction p generalizing q with
  | nil => exact .inr (.inl ⟨List.nil_prefix, rfl⟩)
  | cons c cs ih =>
    cases q with
    | nil => exact .inl ⟨c :: cs, rfl, pathSuffix_nil _⟩
    | cons d ds =>
      simp only [pathSuffix, List.cons_prefix_cons]
      by_cases h : c = d
      · subst h
        simp only [if_true, true_and]
        rcases ih ds with ⟨r, h1, h2⟩ | h | h
        · exact .inl ⟨r, by rw [h1]; rfl, h2⟩
        · exact .inr (.inl h)
        · exact .inr (.inr h)
      · rw [if_neg h]
        exact .inr (.inr ⟨fun hh => h hh.1, fun hh => h hh.1.symm, rfl⟩)

theorem joinSlash_cons (c : Str) : ∀ (cs : Path), joinSlash (c :: cs) = c ++ slashPath cs := by
  intro cs
  induction cs generalizing c with
  | nil => simp [joinSlash, slashPath]
  | cons d ds ih =>
    rw [joinSlash, ih d]
    · simp [slashPath]
    · simp

/-- C60: a path other than the root is printed as its components, each preceded by a slash; the
root is printed as a slash. -/
theorem C60_printing (p : Path) : pathAsString p = if p = [] then ['/'] else slashPath p := by
  cases p with
  | nil => rfl
  | cons c cs => simp [pathAsString, joinSlash_cons, slashPath]

/-- C60: splitting what is printed at slashes and collecting the parts gives the path back, for
paths of non-empty components without slashes. -/
theorem C60_print_parse (p : Path) (hp : PlainPath p) : pathFromIter (splitSlash (pathAsString p)) = p := by
  rw [C60_printing]
  cases p with
  | nil => decide
  | cons c cs =>
    have h := splitSlash_path cs c (hp c (by simp)).2 (fun s hs => hp s (by simp [hs]))
    simp only [reduceCtorEq, if_false]
    have hs : slashPath (c :: cs) = '/' :: (c ++ slashPath cs) := rfl
    rw [hs, splitSlash, if_pos rfl, h]
    unfold pathFromIter
    rw [List.filter_cons_of_neg (by simp)]
    rw [List.filter_eq_self]
    intro s hs
    have := (hp s hs).1
    cases s with
    | nil => exact absurd rfl this
    | cons _ _ => rfl

/-- C60: collected paths have no empty component. -/
theorem C60_no_empty_component (segs : List Str) : ∀ s ∈ pathFromIter segs, s ≠ [] ∧ s ∈ segs := by
  intro s hs
  obtain ⟨h1, h2⟩ := List.mem_filter.1 hs
  refine ⟨?_, h1⟩
  rintro rfl
  simp at h2

example : PlainPath ["a".toList, "b c".toList] ∧
    pathAsString ["a".toList, "b c".toList] = "/a/b c".toList ∧
    pathFromIter (splitSlash "//a//b c/".toList) = ["a".toList, "b c".toList] := by
  refine ⟨?_, by decide, by decide⟩
  unfold PlainPath
  decide

end Xdvdfs.Props
