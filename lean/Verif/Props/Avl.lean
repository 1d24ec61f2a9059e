import Verif.Proof.AvlReorder

/-!
# C16–C20: the directory index

`cmp` is any lawful total order (`Std.TransCmp`: oriented and transitive).
-/

namespace Xdvdfs.Props

open Spec ITree

/-! ## Bridging lemmas -/

theorem sh_eq_height {T : ITree α} (h : T.Bal) : T.sh = (T.erase.height : Int) := by
  induction T with
  | nil => rfl
  | node i hh d l r ihl ihr =>
    obtain ⟨h1, _, _, h4, h5⟩ := h
    simp only [sh_node, h1, ihl h4, ihr h5, erase, BT.height]
    omega

theorem holds_of_rep {tr : List (AvlNode α)} {p : Option Nat} {T : ITree α} (h : Rep tr p T)
    (hb : T.Bal) : Holds tr p T.ptr T.erase := by
  induction T generalizing p with
  | nil => exact .nil
  | node i hh d l r ihl ihr =>
    obtain ⟨h1, h2, h3⟩ := h
    have hbb := hb
    obtain ⟨b1, _, _, b4, b5⟩ := hb
    refine Holds.node (n := ⟨l.ptr, r.ptr, p, hh, d⟩) h1 rfl ?_ (ihl h2 b4) (ihr h3 b5)
    have := sh_eq_height hbb
    simpa [BT.height, erase] using this

theorem inorder_erase (T : ITree α) : T.erase.inorder = T.inord.map Prod.snd := by
  induction T with
  | nil => rfl
  | node i hh d l r ihl ihr => simp [erase, BT.inorder, inord, ihl, ihr]

theorem size_erase (T : ITree α) : T.erase.size = T.idxs.length := by
  induction T with
  | nil => rfl
  | node i hh d l r ihl ihr => simp [erase, BT.size, idxs, ihl, ihr]

theorem isTree_of_wf {cmp : α → α → Ordering} {A : Avl α} {T : ITree α} (h : AvlWF cmp A T) :
    IsTree A T.erase := by
  refine ⟨?_, ?_, ?_⟩
  · have := holds_of_rep h.zip.rep h.bal
    rw [h.zip.root]; exact this
  · rw [size_erase, h.perm.length_eq, List.length_range]
  · intro i hi
    refine ⟨A.tree[i], List.getElem?_eq_getElem hi, ?_⟩
    rw [inorder_erase]
    exact h.mem_data.1 (List.mem_map_of_mem (List.getElem_mem hi))

theorem balanced_of_bal {T : ITree α} (h : T.Bal) : T.erase.Balanced := by
  induction T with
  | nil => trivial
  | node i hh d l r ihl ihr =>
    obtain ⟨_, h2, h3, h4, h5⟩ := h
    rw [sh_eq_height h4, sh_eq_height h5] at h2 h3
    exact ⟨by omega, by omega, ihl h4, ihr h5⟩

theorem insertAll_spec {cmp : α → α → Ordering} [Std.TransCmp cmp] (xs : List α) :
    ∀ (A : Avl α) (T : ITree α), AvlWF cmp A T →
    ∃ A' T', insertAll cmp A xs = .ok ((acceptAll cmp (A.tree.map AvlNode.data) xs).1, A') ∧
      AvlWF cmp A' T' ∧
      A'.tree.map AvlNode.data = (acceptAll cmp (A.tree.map AvlNode.data) xs).2 := by
  induction xs with
  | nil => intro A T h; exact ⟨A, T, rfl, h, rfl⟩
  | cons x xs ih =>
    intro A T h
    obtain ⟨A1, T1, e1, h1, d1, _⟩ := Avl.insert_spec h x
    obtain ⟨A2, T2, e2, h2, d2⟩ := ih A1 T1 h1
    refine ⟨A2, T2, ?_, h2, ?_⟩
    · rw [d1] at e2
      simp only [insertAll, e1, Res.ok_bind, e2, acceptAll, Res.pure_eq]
    · rw [d2, d1]; rfl

theorem reachable_wf {cmp : α → α → Ordering} [Std.TransCmp cmp] (xs : List α) :
    ∃ A T, insertAll cmp Avl.empty xs = .ok ((acceptAll cmp [] xs).1, A) ∧ AvlWF cmp A T ∧
      A.tree.map AvlNode.data = (acceptAll cmp [] xs).2 :=
  insertAll_spec xs Avl.empty .nil (AvlWF.empty cmp)

theorem preorder_data {tr : List (AvlNode α)} {p : Option Nat} {T : ITree α} (h : Rep tr p T) :
    T.idxs.map (fun i => tr[i]?.map AvlNode.data) = T.erase.preorder.map some := by
  induction T generalizing p with
  | nil => rfl
  | node i hh d l r ihl ihr =>
    obtain ⟨h1, h2, h3⟩ := h
    simp [idxs, erase, BT.preorder, ihl h2, ihr h3, h1]

/-! ## C16: the index is a set -/

/-- C16.  The booleans returned by a sequence of insertions, and the elements stored afterwards, are
those of the abstract duplicate-free collection: an element is accepted exactly when no equal one
was accepted before, and exactly the accepted elements are stored. -/
theorem C16_insert_is_set {cmp : α → α → Ordering} [Std.TransCmp cmp] (xs : List α) :
    ∃ A, insertAll cmp Avl.empty xs = .ok ((acceptAll cmp [] xs).1, A) ∧
      A.tree.map AvlNode.data = (acceptAll cmp [] xs).2 := by
  obtain ⟨A, T, h1, _, h3⟩ := reachable_wf (cmp := cmp) xs
  exact ⟨A, h1, h3⟩

/-- C16, rejected duplicates: in any index reached by insertions, inserting an element equal to a
stored one returns `false` and changes nothing; inserting any other element returns `true`. -/
theorem C16_duplicate_changes_nothing {cmp : α → α → Ordering} [Std.TransCmp cmp] (xs : List α)
    (bs : List Bool) (A : Avl α) (h : insertAll cmp Avl.empty xs = .ok (bs, A)) (x : α) :
    ((∃ n ∈ A.tree, cmp x n.data = .eq) → A.insert cmp x = .ok (false, A)) ∧
    ((∀ n ∈ A.tree, cmp x n.data ≠ .eq) →
      ∃ A', A.insert cmp x = .ok (true, A') ∧
        A'.tree.map AvlNode.data = A.tree.map AvlNode.data ++ [x]) := by
  obtain ⟨A0, T, h1, h2, _⟩ := reachable_wf (cmp := cmp) xs
  rw [h] at h1; cases h1
  obtain ⟨A', T', e, _, hd, hf⟩ := Avl.insert_spec h2 x
  constructor
  · rintro ⟨n, hn, hc⟩
    have hany : (A.tree.map AvlNode.data).any (fun y => cmp x y == .eq) = true := by
      rw [List.any_eq_true]; exact ⟨n.data, List.mem_map_of_mem hn, by simp [hc]⟩
    have hacc : Spec.accept cmp (A.tree.map AvlNode.data) x = (false, A.tree.map AvlNode.data) := by
      rw [Spec.accept, if_pos hany]
    rw [hacc] at e hf
    rw [e, hf rfl]
  · intro hn
    have hany : (A.tree.map AvlNode.data).any (fun y => cmp x y == .eq) = false := by
      rw [Bool.eq_false_iff, ne_eq, List.any_eq_true]
      rintro ⟨y, hy, hc⟩
      obtain ⟨n, hn', rfl⟩ := List.mem_map.1 hy
      exact hn n hn' (by simpa using hc)
    have hacc : Spec.accept cmp (A.tree.map AvlNode.data) x
        = (true, A.tree.map AvlNode.data ++ [x]) := by
      rw [Spec.accept, if_neg (by simp [hany])]
    rw [hacc] at e hd
    exact ⟨A', e, hd⟩

/-! ## C17: balanced search tree -/

/-- C17.  After any sequence of insertions the index holds (with exact recorded heights and
consistent parent links, see `Spec.Holds`) a balanced binary tree, sorted in order, whose elements
are the accepted ones. -/
theorem C17_balanced_search_tree {cmp : α → α → Ordering} [Std.TransCmp cmp] (xs : List α)
    (bs : List Bool) (A : Avl α) (h : insertAll cmp Avl.empty xs = .ok (bs, A)) :
    ∃ t : BT α, IsTree A t ∧ t.Balanced ∧ t.inorder.Pairwise (fun a b => cmp a b = .lt) ∧
      t.inorder.Perm (acceptAll cmp [] xs).2 := by
  obtain ⟨A0, T, h1, h2, h3⟩ := reachable_wf (cmp := cmp) xs
  rw [h] at h1; cases h1
  refine ⟨T.erase, isTree_of_wf h2, balanced_of_bal h2.bal, ?_, ?_⟩
  · rw [inorder_erase]; exact h2.sorted
  · rw [← h3, inorder_erase]
    have hp : (T.inord.map Prod.fst).Perm (List.range A.tree.length) := T.inord_idxs.trans h2.perm
    have h4 : T.inord.map (fun x => (A.tree[x.1]?).map AvlNode.data) = T.inord.map (fun x => some x.2) := by
      apply List.map_congr_left
      rintro ⟨i, d⟩ hm
      have := h2.mem_inord.1 hm
      simpa using this
    have h5 : (List.range A.tree.length).map (fun i => (A.tree[i]?).map AvlNode.data)
        = (A.tree.map AvlNode.data).map some := by
      apply List.ext_getElem
      · simp
      · intro i h1 h2; simp at h1; simp [h1]
    have h6 := (hp.map (fun i => (A.tree[i]?).map AvlNode.data))
    rw [List.map_map] at h6
    have h7 : ((T.inord.map Prod.snd).map some).Perm ((A.tree.map AvlNode.data).map some) := by
      rw [← h5]
      refine List.Perm.trans ?_ h6
      rw [List.map_map]
      refine List.Perm.of_eq ?_
      exact h4.symm
    have h8 := h7.filterMap id
    simpa [List.filterMap_map] using h8

/-! ## C18: logarithmic depth -/

theorem balanced_size {t : BT α} (h : t.Balanced) : 2 ^ ((t.height + 1) / 2) ≤ t.size + 1 := by
  suffices H : ∀ (n : Nat) (t : BT α), t.height ≤ n → t.Balanced →
      2 ^ ((t.height + 1) / 2) ≤ t.size + 1 from H _ t (Nat.le_refl _) h
  intro n
  induction n using Nat.strongRecOn with
  | ind n ih =>
  intro t hn hb
  cases t with
  | nil => simp [BT.height, BT.size]
  | node l x r =>
    obtain ⟨h1, h2, h3, h4⟩ := hb
    simp only [BT.height] at hn ⊢
    simp only [BT.size]
    have hl := ih l.height (by omega) l (Nat.le_refl _) h3
    have hr := ih r.height (by omega) r (Nat.le_refl _) h4
    -- both subtrees have height at least `H - 2`
    by_cases h0 : max l.height r.height = 0
    · have : l.height = 0 := by omega
      have : r.height = 0 := by omega
      simp [h0]
    · have e : (max l.height r.height + 1 + 1) / 2 = (max l.height r.height - 1 + 1) / 2 + 1 := by omega
      have hl' : 2 ^ ((max l.height r.height - 1 + 1) / 2) ≤ 2 ^ ((l.height + 1) / 2) :=
        Nat.pow_le_pow_right (by omega) (by omega)
      have hr' : 2 ^ ((max l.height r.height - 1 + 1) / 2) ≤ 2 ^ ((r.height + 1) / 2) :=
        Nat.pow_le_pow_right (by omega) (by omega)
      rw [e, Nat.pow_succ]
      omega

theorem searchCost_le_height (cmp : α → α → Ordering) (x : α) (t : BT α) :
    t.searchCost cmp x ≤ t.height := by
  induction t with
  | nil => simp [BT.searchCost]
  | node l y r ihl ihr =>
    simp only [BT.searchCost, BT.height]
    split <;> omega

/-- C18.  In any index built by insertions (of `n` distinct elements), searching any element
compares at most `2 * log2 (n + 1)` entries. -/
theorem C18_logarithmic_lookup {cmp : α → α → Ordering} [Std.TransCmp cmp] (xs : List α)
    (bs : List Bool) (A : Avl α) (h : insertAll cmp Avl.empty xs = .ok (bs, A)) :
    ∃ t : BT α, IsTree A t ∧ ∀ x, t.searchCost cmp x ≤ 2 * Nat.log2 (A.tree.length + 1) := by
  obtain ⟨t, h1, h2, _, _⟩ := C17_balanced_search_tree xs bs A h
  refine ⟨t, h1, fun x => ?_⟩
  have h3 := searchCost_le_height cmp x t
  have h4 := balanced_size h2
  rw [h1.2.1]
  have h5 : (t.height + 1) / 2 ≤ Nat.log2 (t.size + 1) := (Nat.le_log2 (by omega)).2 h4
  omega

/-! ## C19: reordering -/

/-- C19.  Reordering the backing storage of any index built by insertions succeeds, keeps the tree
it holds, and makes the storage order the pre-order of that tree with the root first. -/
theorem C19_reorder_preorder {cmp : α → α → Ordering} [Std.TransCmp cmp] (xs : List α)
    (bs : List Bool) (A : Avl α) (h : insertAll cmp Avl.empty xs = .ok (bs, A)) :
    ∃ (A' : Avl α) (t : BT α), A.reorder = .ok A' ∧ IsTree A t ∧ IsTree A' t ∧
      A'.tree.map AvlNode.data = t.preorder ∧ (xs ≠ [] → A'.root = some 0) ∧
      A'.preorder = .ok (List.range A'.tree.length) := by
  obtain ⟨A0, T, h1, h2, h3⟩ := reachable_wf (cmp := cmp) xs
  rw [h] at h1; cases h1
  obtain ⟨A', τ, e, hw, hi, hl⟩ := Avl.reorder_spec h2
  have herase := T.rename_erase τ
  refine ⟨A', T.erase, e, isTree_of_wf h2, herase ▸ isTree_of_wf hw, ?_, ?_, ?_⟩
  · have := preorder_data hw.zip.rep
    rw [hi, herase, ← hl] at this
    have h5 : (List.range A'.tree.length).map (fun i => (A'.tree[i]?).map AvlNode.data)
        = (A'.tree.map AvlNode.data).map some := by
      apply List.ext_getElem
      · simp
      · intro i h1 h2; simp at h1; simp [h1]
    rw [h5] at this
    have h6 := congrArg (List.filterMap id) this
    simpa [List.filterMap_map] using h6
  · intro hne
    have hlen : A.tree.length ≠ 0 := by
      have : (acceptAll cmp [] xs).2 ≠ [] := by
        cases xs with
        | nil => exact absurd rfl hne
        | cons x xs =>
          have mono : ∀ (xs acc : List α), acc ≠ [] → (acceptAll cmp acc xs).2 ≠ [] := by
            intro xs
            induction xs with
            | nil => intro acc h; exact h
            | cons y ys ih =>
              intro acc h
              simp only [acceptAll]
              apply ih
              simp only [accept]; split
              · exact h
              · simp
          simp only [acceptAll]
          apply mono
          simp [accept]
      rw [← h3] at this
      intro h0
      exact this (by simp [List.eq_nil_of_length_eq_zero h0])
    have hroot : A'.root = (T.rename τ).ptr := hw.zip.root
    rw [hroot]
    cases hT : T.rename τ with
    | nil => rw [hT] at hi; have := congrArg List.length hi; simp [idxs] at this; exact absurd (by simp [← this]) hlen
    | node i hh d l r =>
      rw [hT] at hi
      have := congrArg List.head? hi
      simp [idxs, List.head?_range, hlen] at this
      simp [this]
  · rw [Avl.preorder_spec hw, hi, hl]

/-- A latent defect beside C19: exchanging a left child with its right sibling (lower index first)
does not exchange the parent's links, so the tree changes.  `reorder` never asks for that exchange
(C19 holds), but no other caller may rely on `swap_backing_elements`. -/
theorem C19_swap_siblings_latent :
    ∃ A A' : Avl Nat, insertAll compare Avl.empty [1, 0, 2] = .ok ([true, true, true], A) ∧
      A.swapBacking 1 2 = .ok A' ∧
      IsTree A (.node (.node .nil 0 .nil) 1 (.node .nil 2 .nil)) ∧
      ¬ IsTree A' (.node (.node .nil 0 .nil) 1 (.node .nil 2 .nil)) := by
  refine ⟨⟨some 0, [⟨some 1, some 2, none, 2, 1⟩, ⟨none, none, some 0, 1, 0⟩, ⟨none, none, some 0, 1, 2⟩]⟩,
    ⟨some 0, [⟨some 1, some 2, none, 2, 1⟩, ⟨none, none, some 0, 1, 2⟩, ⟨none, none, some 0, 1, 0⟩]⟩,
    by decide +kernel, by decide +kernel, ?_, ?_⟩
  · refine ⟨?_, rfl, ?_⟩
    · exact Holds.node (n := ⟨some 1, some 2, none, 2, 1⟩) rfl rfl rfl
        (Holds.node (n := ⟨none, none, some 0, 1, 0⟩) rfl rfl rfl .nil .nil)
        (Holds.node (n := ⟨none, none, some 0, 1, 2⟩) rfl rfl rfl .nil .nil)
    · intro i hi
      match i, hi with
      | 0, _ => exact ⟨_, rfl, by decide⟩
      | 1, _ => exact ⟨_, rfl, by decide⟩
      | 2, _ => exact ⟨_, rfl, by decide⟩
  · rintro ⟨h, _, _⟩
    generalize ht : BT.node (BT.node .nil 0 .nil) 1 (BT.node .nil 2 .nil) = t at h
    cases h with
    | node hget hp hh hl hr =>
      cases hget
      cases ht
      generalize ht' : BT.node BT.nil 0 BT.nil = t' at hl
      cases hl with
      | node hget' _ _ _ _ => cases hget'; cases ht'

/-! ## C20: no panic, no endless loop -/

/-- C20.  Any sequence of insertions, followed by a reordering and a pre-order walk, returns
normally: no assertion, unwrap, index or `unreachable!` fails and every loop terminates within its
iteration budget. -/
theorem C20_avl_never_panics {cmp : α → α → Ordering} [Std.TransCmp cmp] (xs : List α) :
    ∃ bs A A' order order', insertAll cmp Avl.empty xs = .ok (bs, A) ∧ A.preorder = .ok order ∧
      A.reorder = .ok A' ∧ A'.preorder = .ok order' := by
  obtain ⟨A, T, h1, h2, _⟩ := reachable_wf (cmp := cmp) xs
  obtain ⟨A', τ, e, hw, _, _⟩ := Avl.reorder_spec h2
  exact ⟨_, A, A', _, _, h1, Avl.preorder_spec h2, e, Avl.preorder_spec hw⟩

/-! ## The hypotheses are met by concrete, non-trivial histories -/

/-- Ten insertions with a duplicate and several rotations. -/
example : (match insertAll compare Avl.empty [5, 9, 3, 5, 4, 7, 6, 1, 2, 8] with
    | .ok (bs, A) => some (bs, A.tree.map AvlNode.data, A.root)
    | _ => none) = some ([true, true, true, false, true, true, true, true, true, true],
      [5, 9, 3, 4, 7, 6, 1, 2, 8], some 0) := by
  decide +kernel

/-- A history that ends in a double rotation, and its reordering. -/
example : (match insertAll compare Avl.empty [3, 1, 2] with
    | .ok (_, A) => (match A.reorder with
      | .ok A' => some (A.tree.map AvlNode.data, A.root, A'.tree.map AvlNode.data, A'.root)
      | _ => none)
    | _ => none) = some ([3, 1, 2], some 2, [2, 1, 3], some 0) := by
  decide +kernel

example : Std.TransCmp (compare : Nat → Nat → Ordering) := inferInstance

end Xdvdfs.Props
