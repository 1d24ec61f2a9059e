import Verif.Props.Cli
import Verif.Props.Index

/-!
# Exactly which argument lists and names are accepted (C43, C57)
-/

namespace Xdvdfs.Props
open Xdvdfs Spec

namespace SmallExact

theorem loop_exact : ∀ (n : Nat) (args : List Str) (acc : List (Str × Option Str)), args.length ≤ n →
    (∃ ds : List Str, args = ds.flatMap (fun d => [['-', 'c'], d]) ∧
      createTasksLoop args acc = .ok (acc ++ ds.map (fun d => (d, none)))) ∨
    ((¬ ∃ ds : List Str, args = ds.flatMap (fun d => [['-', 'c'], d])) ∧ createTasksLoop args acc = .err .other) := by
  intro n
  induction n with
  | zero =>
    intro args acc h
    have : args = [] := List.eq_nil_of_length_eq_zero (by omega)
    subst this
    exact .inl ⟨[], rfl, by simp [createTasksLoop]⟩
  | succ n ih =>
    intro args acc h
    match args, h with
    | [], _ => exact .inl ⟨[], rfl, by simp [createTasksLoop]⟩
    | [c], _ =>
      refine .inr ⟨?_, rfl⟩
      rintro ⟨ds, hd⟩
      cases ds <;> simp at hd
    | c :: d :: rest, h =>
      by_cases hc : c = ['-', 'c']
      · subst hc
        have back : (∃ ds : List Str, ['-', 'c'] :: d :: rest = ds.flatMap (fun d => [['-', 'c'], d])) →
            ∃ ds : List Str, rest = ds.flatMap (fun d => [['-', 'c'], d]) := by
          rintro ⟨ds, hd⟩
          cases ds with
          | nil => simp at hd
          | cons e ds =>
            simp only [List.flatMap_cons, List.cons_append, List.cons.injEq, List.nil_append] at hd
            exact ⟨ds, hd.2.2⟩
        have hr : rest.length ≤ n := by simp at h; omega
        rcases createTasks_head rest with h0 | ⟨r, h0⟩ | ⟨f, r, h0, hf⟩
        · subst h0
          exact .inl ⟨[d], rfl, by rw [loop_last]; simp [createTasksLoop]⟩
        · subst h0
          rw [loop_none]
          rcases ih (['-', 'c'] :: r) (acc ++ [(d, none)]) hr with ⟨ds, h1, h2⟩ | ⟨h1, h2⟩
          · exact .inl ⟨d :: ds, by rw [h1]; rfl, by rw [h2]; simp⟩
          · exact .inr ⟨fun h => h1 (back h), h2⟩
        · subst h0
          rw [loop_some _ _ hf, loop_bad _ _ hf]
          refine .inr ⟨fun h => ?_, rfl⟩
          obtain ⟨ds, hd⟩ := back h
          cases ds with
          | nil => simp at hd
          | cons e ds =>
            simp only [List.flatMap_cons, List.cons_append, List.cons.injEq] at hd
            exact hf hd.1
      · refine .inr ⟨?_, by simp [createTasksLoop, hc]⟩
        rintro ⟨ds, hd⟩
        cases ds with
        | nil => simp at hd
        | cons e ds =>
          simp only [List.flatMap_cons, List.cons_append, List.cons.injEq] at hd
          exact hc hd.1
where
  createTasks_head (rest : List Str) : rest = [] ∨ (∃ r, rest = ['-', 'c'] :: r) ∨
      ∃ f r, rest = f :: r ∧ f ≠ ['-', 'c'] := by
    cases rest with
    | nil => exact .inl rfl
    | cons f r =>
      by_cases hf : f = ['-', 'c']
      · exact .inr (.inl ⟨r, by rw [hf]⟩)
      · exact .inr (.inr ⟨f, r, rfl, hf⟩)

theorem insert_wide {α : Type} {v : α} {f : Trie α → Res (Trie α)} : ∀ {name : Str} {t : Trie α}, Trie.WF t →
    (∃ c ∈ name, 256 ≤ c.toNat) → Trie.insertTailWith v f name t = .panic := by
  intro name
  induction name with
  | nil => rintro t _ ⟨c, hc, _⟩; cases hc
  | cons a cs ih =>
    rintro ⟨ks, r⟩ hw ⟨c, hc, hw'⟩
    cases hw with
    | node hlen hk hr =>
    by_cases ha : 256 ≤ a.toNat
    · rw [Trie.insertTailWith, List.getElem?_eq_none (by omega)]
    · have hex : ∃ c ∈ cs, 256 ≤ c.toNat := by
        rcases List.mem_cons.1 hc with rfl | hc
        · exact absurd hw' ha
        · exact ⟨c, hc, hw'⟩
      rw [Trie.insertTailWith]
      cases hg : ks[a.toNat]? with
      | none => rfl
      | some o =>
        cases o with
        | none => simp only [ih Trie.wf_empty hex]; rfl
        | some u => simp only [ih (hk u (List.mem_of_getElem? hg)) hex]; rfl

set_option maxRecDepth 4000 in
theorem decodeByte_iff (b : UInt8) : (decodeByte b).toNat < 256 ↔
    (b < 0x80 ∨ 0x9f < b ∨ b = 0x81 ∨ b = 0x8d ∨ b = 0x8f ∨ b = 0x90 ∨ b = 0x9d) := by
  obtain ⟨⟨k⟩⟩ := b
  revert k
  decide +kernel

end SmallExact

/-- C57, for every list of arguments after the first task: it is accepted exactly if it consists of pairs `-c DIR`, and then
means one task without an output file for each of them; every other list is rejected. -/
theorem C57_create_args_iff (dir : Str) (file : Option Str) (args : List Str) :
    (∀ ts, createTasks dir file args = .ok ts ↔
      ∃ ds : List Str, args = ds.flatMap (fun d => [['-', 'c'], d]) ∧ ts = (dir, file) :: ds.map (fun d => (d, none))) ∧
    (createTasks dir file args = .err .other ↔ ¬ ∃ ds : List Str, args = ds.flatMap (fun d => [['-', 'c'], d])) := by
  have inj : ∀ ds es : List Str, ds.flatMap (fun d => [['-', 'c'], d]) = es.flatMap (fun d => [['-', 'c'], d]) → ds = es := by
    intro ds
    induction ds with
    | nil => intro es h; cases es with
      | nil => rfl
      | cons e es => simp at h
    | cons d ds ih =>
      intro es h
      cases es with
      | nil => simp at h
      | cons e es =>
        simp only [List.flatMap_cons, List.cons_append, List.cons.injEq, List.nil_append, true_and] at h
        rw [h.1, ih es h.2]
  rcases SmallExact.loop_exact args.length args [(dir, file)] (Nat.le_refl _) with ⟨ds, h1, h2⟩ | ⟨h1, h2⟩
  · have h2 : createTasks dir file args = .ok ((dir, file) :: ds.map (fun d => (d, none))) := h2
    refine ⟨fun ts => ⟨fun h => ?_, ?_⟩, ⟨fun h => ?_, fun h => absurd ⟨ds, h1⟩ h⟩⟩
    · rw [h2] at h; cases h; exact ⟨ds, h1, rfl⟩
    · rintro ⟨es, h3, h4⟩
      rw [h1] at h3
      rw [h2, h4, inj _ _ h3]
    · rw [h2] at h; cases h
  · have h2 : createTasks dir file args = .err .other := h2
    refine ⟨fun ts => ⟨fun h => ?_, ?_⟩, ⟨fun _ => h1, fun _ => h2⟩⟩
    · rw [h2] at h; cases h
    · rintro ⟨es, h3, _⟩
      exact absurd ⟨es, h3⟩ h1

/-- `-c b -c d` is accepted. -/
example : createTasks ['a'] none [['-', 'c'], ['b'], ['-', 'c'], ['d']] = .ok [(['a'], none), (['b'], none), (['d'], none)] :=
  ((C57_create_args_iff _ _ _).1 _).2 ⟨[['b'], ['d']], rfl, rfl⟩

/-- C43, exactly: after any history of insertions of names below U+0100, inserting a name of a directory entry into the index
returns if none of its bytes is one of the 27 that stand for a character above U+00FF, and panics otherwise. -/
theorem C43_names_iff {α : Type} (h : List (Insertion α)) (hl : Latin1History h) {t : Trie α}
    (ht : runInsertions h Trie.empty = .ok t) (name : Bytes) (v : α) :
    ((t.insertAt [] (decodeName name) v).Returns ↔
      ∀ b ∈ name, b < 0x80 ∨ 0x9f < b ∨ b = 0x81 ∨ b = 0x8d ∨ b = 0x8f ∨ b = 0x90 ∨ b = 0x9d) ∧
    (t.insertAt [] (decodeName name) v = .panic ↔
      ¬ ∀ b ∈ name, b < 0x80 ∨ 0x9f < b ∨ b = 0x81 ∨ b = 0x8d ∨ b = 0x8f ∨ b = 0x90 ∨ b = 0x9d) := by
  obtain ⟨t0, h1, h2⟩ := Trie.runInsertions_rep h Trie.empty [] hl Trie.rep_empty
  cases ht.symm.trans h1
  by_cases hb : ∀ b ∈ name, b < 0x80 ∨ 0x9f < b ∨ b = 0x81 ∨ b = 0x8d ∨ b = 0x8f ∨ b = 0x90 ∨ b = 0x9d
  · have hn : Latin1 (decodeName name) := by
      intro c hc
      obtain ⟨b, hb', rfl⟩ := List.mem_map.1 hc
      exact (SmallExact.decodeByte_iff b).2 (hb b hb')
    obtain ⟨t', j1, _⟩ := (Trie.insertAt_spec h2.1 (dir := []) (by intro s hs; cases hs) hn v).2 (.inl rfl)
    rw [j1]
    exact ⟨⟨fun _ => hb, fun _ => ⟨by simp, by simp⟩⟩, ⟨by simp, fun h => absurd hb h⟩⟩
  · have hw : ∃ c ∈ decodeName name, 256 ≤ c.toNat := by
      apply Classical.byContradiction
      intro hno
      apply hb
      intro b hb'
      apply (SmallExact.decodeByte_iff b).1
      apply Classical.byContradiction
      intro hbig
      exact hno ⟨decodeByte b, List.mem_map.2 ⟨b, hb', rfl⟩, by omega⟩
    have e : t.insertAt [] (decodeName name) v = .panic := by
      unfold Trie.insertAt Trie.insertTail
      rw [if_pos rfl, SmallExact.insert_wide h2.1 hw]
      rfl
    rw [e]
    exact ⟨⟨fun h => absurd rfl h.1, fun h => absurd h hb⟩, ⟨fun _ => hb, fun _ => rfl⟩⟩

/-- The byte `0x81` is accepted, `0x82` is not. -/
example : ((Trie.empty : Trie Nat).insertAt [] (decodeName [0x81]) 0).Returns ∧
    (Trie.empty : Trie Nat).insertAt [] (decodeName [0x41, 0x82]) 0 = .panic :=
  ⟨(C43_names_iff [] (by intro x hx; cases hx) rfl [0x81] 0).1.2 (by decide),
    (C43_names_iff [] (by intro x hx; cases hx) rfl [0x41, 0x82] 0).2.2 (by decide)⟩

end Xdvdfs.Props
