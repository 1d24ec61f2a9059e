import Verif.Proof.AvlInsert

/-! # Reordering the backing vector -/

namespace Xdvdfs

open ITree

/-- Exchange `a` and `b`. -/
def sw (a b i : Nat) : Nat := if i = a then b else if i = b then a else i

theorem sw_sw (a b i : Nat) : sw a b (sw a b i) = i := by unfold sw; grind
theorem sw_inj {a b i j : Nat} (h : sw a b i = sw a b j) : i = j := by
  rw [← sw_sw a b i, h, sw_sw]
theorem sw_a (a b : Nat) : sw a b a = b := by simp [sw]
theorem sw_b (a b : Nat) : sw a b b = a := by simp [sw]; 
theorem sw_lt {a b i n : Nat} (ha : a < n) (hb : b < n) (hi : i < n) : sw a b i < n := by
  unfold sw; split; exact hb; split; exact ha; exact hi
theorem sw_of_ne {a b i : Nat} (h1 : i ≠ a) (h2 : i ≠ b) : sw a b i = i := by simp [sw, h1, h2]

def AvlNode.rename (σ : Nat → Nat) (n : AvlNode α) : AvlNode α :=
  { n with left := n.left.map σ, right := n.right.map σ, parent := n.parent.map σ }

/-- Local coherence of the arena's links. -/
structure Coh (A : Avl α) : Prop where
  left : ∀ (i : Nat) (n : AvlNode α) (j : Nat), A.tree[i]? = some n → n.left = some j →
    j ≠ i ∧ ∃ m : AvlNode α, A.tree[j]? = some m ∧ m.parent = some i
  right : ∀ (i : Nat) (n : AvlNode α) (j : Nat), A.tree[i]? = some n → n.right = some j →
    j ≠ i ∧ ∃ m : AvlNode α, A.tree[j]? = some m ∧ m.parent = some i
  parent : ∀ (i : Nat) (n : AvlNode α) (p : Nat), A.tree[i]? = some n → n.parent = some p →
    p ≠ i ∧ ∃ m : AvlNode α, A.tree[p]? = some m ∧ (m.left = some i ∨ m.right = some i)
  orphan : ∀ (i : Nat) (n : AvlNode α), A.tree[i]? = some n → n.parent = none → A.root = some i
  root : ∀ r : Nat, A.root = some r → ∃ n : AvlNode α, A.tree[r]? = some n ∧ n.parent = none
  distinct : ∀ (i : Nat) (n : AvlNode α) (j : Nat), A.tree[i]? = some n → n.left = some j → n.right ≠ some j

/-- What the stored tree says about node `i`. -/
def NodeCoh (tr : List (AvlNode α)) (p : Option Nat) (T : ITree α) (i : Nat) (n : AvlNode α) : Prop :=
  ((n.parent = p ∧ T.ptr = some i) ∨
    ∃ (q : Nat) (m : AvlNode α), n.parent = some q ∧ q ≠ i ∧ tr[q]? = some m ∧ (m.left = some i ∨ m.right = some i)) ∧
  (∀ j : Nat, n.left = some j → j ≠ i ∧ ∃ m : AvlNode α, tr[j]? = some m ∧ m.parent = some i) ∧
  (∀ j : Nat, n.right = some j → j ≠ i ∧ ∃ m : AvlNode α, tr[j]? = some m ∧ m.parent = some i) ∧
  (∀ j, n.left = some j → n.right ≠ some j)

theorem Rep.coh {tr : List (AvlNode α)} {p : Option Nat} {T : ITree α} (h : Rep tr p T)
    (hnd : T.idxs.Nodup) : ∀ i ∈ T.idxs, ∃ n, tr[i]? = some n ∧ NodeCoh tr p T i n := by
  induction T generalizing p with
  | nil => simp [idxs]
  | node k hh d l r ihl ihr =>
    obtain ⟨h1, h2, h3⟩ := h
    simp only [idxs, List.nodup_cons, List.nodup_append, List.mem_append, not_or] at hnd
    obtain ⟨⟨hkl, hkr⟩, hndl, hndr, hlr⟩ := hnd
    have hroot : ∀ (t : ITree α), Rep tr (some k) t → k ∉ t.idxs → ∀ j, t.ptr = some j →
        j ≠ k ∧ ∃ m, tr[j]? = some m ∧ m.parent = some k := by
      intro t ht hk j hj
      refine ⟨?_, ?_⟩
      · rintro rfl; exact hk (ITree.ptr_mem hj)
      · cases t with
        | nil => simp at hj
        | node k' _ _ _ _ => simp at hj; subst hj; exact ⟨_, ht.1, rfl⟩
    intro i hi
    simp only [idxs, List.mem_cons, List.mem_append] at hi
    rcases hi with rfl | hi | hi
    · refine ⟨_, h1, .inl ⟨rfl, rfl⟩, hroot l h2 hkl, hroot r h3 hkr, ?_⟩
      intro j hj hj'
      exact hlr j (ITree.ptr_mem hj) j (ITree.ptr_mem hj') rfl
    · obtain ⟨n, g1, g2, g3⟩ := ihl h2 hndl i hi
      refine ⟨n, g1, .inr ?_, g3⟩
      rcases g2 with ⟨g2, g2'⟩ | g2
      · exact ⟨k, _, g2, by rintro rfl; exact hkl hi, h1, .inl g2'⟩
      · exact g2
    · obtain ⟨n, g1, g2, g3⟩ := ihr h3 hndr i hi
      refine ⟨n, g1, .inr ?_, g3⟩
      rcases g2 with ⟨g2, g2'⟩ | g2
      · exact ⟨k, _, g2, by rintro rfl; exact hkr hi, h1, .inr g2'⟩
      · exact g2

theorem Zip.coh {A : Avl α} {T : ITree α} (hz : Zip A T [])
    (hp : T.idxs.Perm (List.range A.tree.length)) : Coh A := by
  have hnd : T.idxs.Nodup := hp.nodup_iff.2 List.nodup_range
  have key := Rep.coh hz.rep hnd
  have hmem : ∀ (i : Nat) (n : AvlNode α), A.tree[i]? = some n → i ∈ T.idxs := fun i n h =>
    hp.mem_iff.2 (List.mem_range.2 (getElem?_lt h))
  have key' : ∀ (i : Nat) (n : AvlNode α), A.tree[i]? = some n → NodeCoh A.tree none T i n := fun i n h => by
    obtain ⟨n', g1, g⟩ := key i (hmem i n h)
    rw [h] at g1; cases g1
    exact g
  refine ⟨?_, ?_, ?_, ?_, ?_, ?_⟩
  · intro i n j hi hj; exact (key' i n hi).2.1 j hj
  · intro i n j hi hj; exact (key' i n hi).2.2.1 j hj
  · intro i n p hi hj
    rcases (key' i n hi).1 with ⟨g, _⟩ | ⟨q, m, g1, g2, g3, g4⟩
    · simp [hj] at g
    · rw [hj] at g1; cases g1; exact ⟨g2, m, g3, g4⟩
  · intro i n hi hj
    rcases (key' i n hi).1 with ⟨g, g'⟩ | ⟨q, m, g1, g2, g3, g4⟩
    · rw [hz.root]; exact g'
    · simp [hj] at g1
  · intro r hr
    rw [hz.root] at hr
    cases T with
    | nil => simp [ctxRoot] at hr
    | node k _ _ _ _ =>
      simp [ctxRoot] at hr; subst hr; exact ⟨_, hz.rep.1, rfl⟩
  · intro i n j hi hj; exact (key' i n hi).2.2.2 j hj

theorem setParentRef_none {A : Avl α} {i : Nat} {n : AvlNode α} {v : Option Nat}
    (h : A.tree[i]? = some n) (hp : n.parent = none) :
    A.setParentRef i v = .ok { A with root := v } := by
  simp [Avl.setParentRef, Avl.parentDirection, Avl.get, h, hp]

theorem setParentRef_left {A : Avl α} {i p : Nat} {n m : AvlNode α} {v : Option Nat}
    (h : A.tree[i]? = some n) (hp : n.parent = some p) (hm : A.tree[p]? = some m)
    (hl : m.left = some i) :
    A.setParentRef i v = .ok { A with tree := A.tree.modify p (fun n => { n with left := v }) } := by
  simp [Avl.setParentRef, Avl.parentDirection, Avl.get_of h, hp, Avl.get_of hm, hl, Avl.modify, getElem?_lt hm]

theorem setParentRef_right {A : Avl α} {i p : Nat} {n m : AvlNode α} {v : Option Nat}
    (h : A.tree[i]? = some n) (hp : n.parent = some p) (hm : A.tree[p]? = some m)
    (hl : m.left ≠ some i) (hr : m.right = some i) :
    A.setParentRef i v = .ok { A with tree := A.tree.modify p (fun n => { n with right := v }) } := by
  simp [Avl.setParentRef, Avl.parentDirection, Avl.get_of h, hp, Avl.get_of hm, hl, hr, Avl.modify, getElem?_lt hm]

theorem setParentOpt_pt {A : Avl α} {to : Option Nat} {i : Nat}
    (h : ∀ k, to = some k → k < A.tree.length) :
    ∃ A', A.setParentOpt to i = .ok A' ∧ A'.root = A.root ∧ A'.tree.length = A.tree.length ∧
      ∀ j : Nat, A'.tree[j]? = (A.tree[j]?).map
        (fun n => { n with parent := if to = some j then some i else n.parent }) := by
  cases to with
  | none =>
    refine ⟨A, rfl, rfl, rfl, fun j => ?_⟩
    simp
  | some k =>
    refine ⟨_, if_pos (h k rfl), rfl, by simp, fun j => ?_⟩
    simp only [List.getElem?_modify, Option.some.injEq]
    by_cases hj : k = j
    · subst hj; simp
    · simp [hj]

def renameKids (σ : Nat → Nat) (n : AvlNode α) : AvlNode α :=
  { n with left := n.left.map σ, right := n.right.map σ }

def redirect (a b : Nat) (n : AvlNode α) : AvlNode α :=
  { n with
    left := if n.left = some a then some b else n.left
    right := if n.right = some a then some b else n.right }

/-- Effect of the two `parent_node_ref` assignments. -/
theorem swap_refs {A : Avl α} (hc : Coh A) {a b : Nat} (hab : a ≠ b) (ha : a < A.tree.length)
    (hb : b < A.tree.length)
    (hsib : ∀ (p : Nat) (m : AvlNode α), A.tree[p]? = some m → ¬(m.left = some a ∧ m.right = some b)) :
    ∃ A1 A2 : Avl α, ({ A with root := A.root.map (sw a b) } : Avl α).setParentRef a (some b) = .ok A1 ∧
      A1.setParentRef b (some a) = .ok A2 ∧ A2.root = A.root.map (sw a b) ∧
      A2.tree.length = A.tree.length ∧
      ∀ j : Nat, A2.tree[j]? = (A.tree[j]?).map (renameKids (sw a b)) := by
  obtain ⟨na, ga⟩ : ∃ n, A.tree[a]? = some n := ⟨A.tree[a], List.getElem?_eq_getElem ha⟩
  obtain ⟨nb, gb⟩ : ∃ n, A.tree[b]? = some n := ⟨A.tree[b], List.getElem?_eq_getElem hb⟩
  -- who points at a node
  have uniqL : ∀ (j : Nat) (n : AvlNode α) (i : Nat), A.tree[j]? = some n → n.left = some i → ∀ m : AvlNode α, A.tree[i]? = some m → m.parent = some j := by
    intro j n i h1 h2 m h3
    obtain ⟨_, m', g1, g2⟩ := hc.left j n i h1 h2
    rw [h3] at g1; cases g1; exact g2
  have uniqR : ∀ (j : Nat) (n : AvlNode α) (i : Nat), A.tree[j]? = some n → n.right = some i → ∀ m : AvlNode α, A.tree[i]? = some m → m.parent = some j := by
    intro j n i h1 h2 m h3
    obtain ⟨_, m', g1, g2⟩ := hc.right j n i h1 h2
    rw [h3] at g1; cases g1; exact g2
  -- nodes not pointing at `a` or `b` keep their children
  have keep : ∀ (j : Nat) (n : AvlNode α), A.tree[j]? = some n → na.parent ≠ some j → nb.parent ≠ some j →
      renameKids (sw a b) n = n := by
    intro j n h1 h2 h3
    have k1 : ∀ i, n.left = some i → sw a b i = i := by
      intro i hi
      refine sw_of_ne ?_ ?_
      · rintro rfl; exact h2 (uniqL j n i h1 hi na ga)
      · rintro rfl; exact h3 (uniqL j n i h1 hi nb gb)
    have k2 : ∀ i, n.right = some i → sw a b i = i := by
      intro i hi
      refine sw_of_ne ?_ ?_
      · rintro rfl; exact h2 (uniqR j n i h1 hi na ga)
      · rintro rfl; exact h3 (uniqR j n i h1 hi nb gb)
    obtain ⟨nl, nr, np, nh, nd⟩ := n
    simp only [renameKids, AvlNode.mk.injEq, and_true]
    simp only at k1 k2
    constructor
    · cases nl with
      | none => rfl
      | some i => simp [k1 i rfl]
    · cases nr with
      | none => rfl
      | some i => simp [k2 i rfl]
  cases hpa : na.parent with
  | none =>
    have hra := hc.orphan a na ga hpa
    cases hpb : nb.parent with
    | none => have := hc.orphan b nb gb hpb; rw [hra] at this; cases this; exact absurd rfl hab
    | some pb =>
      obtain ⟨hpbne, m, gm, hm⟩ := hc.parent b nb pb gb hpb
      have e1 : ({ A with root := A.root.map (sw a b) } : Avl α).setParentRef a (some b)
          = .ok { A with root := some b } := setParentRef_none (n := na) ga hpa
      by_cases hl : m.left = some b
      · refine ⟨_, _, e1, setParentRef_left (n := nb) (m := m) gb hpb gm hl, ?_, by simp, ?_⟩
        · simp [hra, sw_a]
        · intro j
          simp only [List.getElem?_modify]
          by_cases hj : pb = j
          · subst hj
            have hr : m.right.map (sw a b) = m.right := by
              cases hmr : m.right with
              | none => rfl
              | some i =>
                have h1 := hc.distinct pb m b gm hl
                have : i ≠ a := by rintro rfl; have := uniqR pb m i gm hmr na ga; simp [hpa] at this
                have h2 : i ≠ b := by rintro rfl; exact h1 hmr
                simp [sw_of_ne this h2]
            simp [gm, renameKids, hl, hr, sw_b]
          · cases hg : A.tree[j]? with
            | none => simp
            | some n => simp [hj, keep j n hg (by simp [hpa]) (by simp [hpb, hj])]
      · have hr : m.right = some b := by rcases hm with h | h; exact absurd h hl; exact h
        refine ⟨_, _, e1, setParentRef_right (n := nb) (m := m) gb hpb gm hl hr, ?_, by simp, ?_⟩
        · simp [hra, sw_a]
        · intro j
          simp only [List.getElem?_modify]
          by_cases hj : pb = j
          · subst hj
            have hl' : m.left.map (sw a b) = m.left := by
              cases hml : m.left with
              | none => rfl
              | some i =>
                have : i ≠ a := by rintro rfl; have := uniqL pb m i gm hml na ga; simp [hpa] at this
                have h2 : i ≠ b := by rintro rfl; exact hl hml
                simp [sw_of_ne this h2]
            simp [gm, renameKids, hr, hl', sw_b]
          · cases hg : A.tree[j]? with
            | none => simp
            | some n => simp [hj, keep j n hg (by simp [hpa]) (by simp [hpb, hj])]
  | some pa =>
    obtain ⟨hpane, ma, gma, hma⟩ := hc.parent a na pa ga hpa
    -- after the first assignment
    obtain ⟨A1, e1, hroot1, hlen1, hA1⟩ : ∃ A1 : Avl α,
        ({ A with root := A.root.map (sw a b) } : Avl α).setParentRef a (some b) = .ok A1 ∧
        A1.root = A.root.map (sw a b) ∧ A1.tree.length = A.tree.length ∧
        ∀ j : Nat, A1.tree[j]? = (A.tree[j]?).map (redirect a b) := by
      by_cases hl : ma.left = some a
      · refine ⟨_, setParentRef_left (n := na) (m := ma) ga hpa gma hl, rfl, by simp, ?_⟩
        intro j
        simp only [List.getElem?_modify]
        by_cases hj : pa = j
        · subst hj
          have := hc.distinct pa ma a gma hl
          simp [gma, hl, this, redirect]
        · cases hg : A.tree[j]? with
          | none => simp
          | some n =>
            have h1 : n.left ≠ some a := fun h => hj (by
              have := uniqL j n a hg h na ga; rw [hpa] at this; exact Option.some.inj this)
            have h2 : n.right ≠ some a := fun h => hj (by
              have := uniqR j n a hg h na ga; rw [hpa] at this; exact Option.some.inj this)
            simp [hj, h1, h2, redirect]
      · have hr : ma.right = some a := by rcases hma with h | h; exact absurd h hl; exact h
        refine ⟨_, setParentRef_right (n := na) (m := ma) ga hpa gma hl hr, rfl, by simp, ?_⟩
        intro j
        simp only [List.getElem?_modify]
        by_cases hj : pa = j
        · subst hj
          simp [gma, hl, hr, redirect]
        · cases hg : A.tree[j]? with
          | none => simp
          | some n =>
            have h1 : n.left ≠ some a := fun h => hj (by
              have := uniqL j n a hg h na ga; rw [hpa] at this; exact Option.some.inj this)
            have h2 : n.right ≠ some a := fun h => hj (by
              have := uniqR j n a hg h na ga; rw [hpa] at this; exact Option.some.inj this)
            simp [hj, h1, h2, redirect]
    have gb1 : A1.tree[b]? = some (redirect a b nb) := by
      rw [hA1, gb]; rfl
    cases hpb : nb.parent with
    | none =>
      have hrb := hc.orphan b nb gb hpb
      refine ⟨A1, _, e1, setParentRef_none gb1 hpb, ?_, hlen1, ?_⟩
      · simp [hrb, sw_b]
      · intro j
        simp only [hA1]
        cases hg : A.tree[j]? with
        | none => simp
        | some n =>
          have h1 : n.left ≠ some b := fun h => by
            have := uniqL j n b hg h nb gb; simp [hpb] at this
          have h2 : n.right ≠ some b := fun h => by
            have := uniqR j n b hg h nb gb; simp [hpb] at this
          simp only [Option.map_some, renameKids, redirect, Option.some.injEq, AvlNode.mk.injEq, and_true]
          constructor
          · cases hx : n.left with
            | none => simp
            | some i => rw [hx] at h1; simp [sw]; grind
          · cases hx : n.right with
            | none => simp
            | some i => rw [hx] at h2; simp [sw]; grind
    | some pb =>
      obtain ⟨hpbne, mb, gmb, hmb⟩ := hc.parent b nb pb gb hpb
      have gmb1 := hA1 pb
      rw [gmb] at gmb1
      simp only [Option.map_some] at gmb1
      have hother : ∀ (j : Nat) (n : AvlNode α), j ≠ pb → A.tree[j]? = some n → n.left ≠ some b ∧ n.right ≠ some b := by
        intro j n hj hg
        constructor
        · intro h; have := uniqL j n b hg h nb gb; rw [hpb] at this; exact hj (Option.some.inj this).symm
        · intro h; have := uniqR j n b hg h nb gb; rw [hpb] at this; exact hj (Option.some.inj this).symm
      have hs := hsib pb mb gmb
      have hdist1 := hc.distinct pb mb b gmb
      have hdist2 := hc.distinct pb mb a gmb
      have pointwise : ∀ (j : Nat) (n : AvlNode α), j ≠ pb → A.tree[j]? = some n →
          redirect a b n = renameKids (sw a b) n := by
        intro j n hj hg
        obtain ⟨h1, h2⟩ := hother j n hj hg
        simp only [renameKids, redirect, AvlNode.mk.injEq, and_true]
        constructor
        · cases hx : n.left with
          | none => simp
          | some i => rw [hx] at h1; simp [sw]; grind
        · cases hx : n.right with
          | none => simp
          | some i => rw [hx] at h2; simp [sw]; grind
      by_cases hl : mb.left = some b
      · refine ⟨A1, _, e1, setParentRef_left gb1 hpb gmb1 ?_, hroot1, by simp [hlen1], ?_⟩
        · simp [hl, redirect, Ne.symm hab]
        · intro j
          simp only [List.getElem?_modify, hA1]
          by_cases hj : pb = j
          · subst hj
            have hd := hdist1 hl
            simp only [gmb, Option.map_some, if_true, renameKids, redirect, hl, sw_b, Option.some.injEq,
              AvlNode.mk.injEq, and_true, true_and]
            cases hx : mb.right with
            | none => simp
            | some i => rw [hx] at hd; simp [sw]; grind
          · cases hg : A.tree[j]? with
            | none => simp
            | some n =>
              simp only [Option.map_some, hj, if_false, id, Option.map_eq_map]
              rw [pointwise j n (Ne.symm hj) hg]
      · have hr : mb.right = some b := by rcases hmb with h | h; exact absurd h hl; exact h
        have hla : mb.left ≠ some a := fun h => hs ⟨h, hr⟩
        refine ⟨A1, _, e1, setParentRef_right gb1 hpb gmb1 ?_ ?_, hroot1, by simp [hlen1], ?_⟩
        · simp [hl, hla, redirect]
        · simp [hr, redirect, Ne.symm hab]
        · intro j
          simp only [List.getElem?_modify, hA1]
          by_cases hj : pb = j
          · subst hj
            simp only [gmb, Option.map_some, if_true, renameKids, redirect, hr, sw_b, Option.some.injEq,
              AvlNode.mk.injEq, and_true, true_and, hla, if_false]
            cases hx : mb.left with
            | none => simp
            | some i => rw [hx] at hl hla; simp [sw]; grind
          · cases hg : A.tree[j]? with
            | none => simp
            | some n =>
              simp only [Option.map_some, hj, if_false, id, Option.map_eq_map]
              rw [pointwise j n (Ne.symm hj) hg]

theorem swapBacking_spec {A : Avl α} (hc : Coh A) {a b : Nat} (ha : a < A.tree.length)
    (hb : b < A.tree.length)
    (hsib : ∀ (p : Nat) (m : AvlNode α), A.tree[p]? = some m → ¬(m.left = some a ∧ m.right = some b)) :
    ∃ A', A.swapBacking a b = .ok A' ∧ A'.root = A.root.map (sw a b) ∧
      A'.tree.length = A.tree.length ∧
      ∀ j : Nat, A'.tree[sw a b j]? = (A.tree[j]?).map (AvlNode.rename (sw a b)) := by
  by_cases hab : a = b
  · subst hab
    have hid : sw a a = id := by funext i; simp [sw]; grind
    refine ⟨A, by simp [Avl.swapBacking], by simp [hid], rfl, fun j => ?_⟩
    have : AvlNode.rename (sw a a) = (id : AvlNode α → AvlNode α) := by
      funext n; simp [AvlNode.rename, hid]
    rw [this, hid]; simp
  obtain ⟨A1, A2, e1, e2, r2, l2, p2⟩ := swap_refs hc hab ha hb hsib
  obtain ⟨na, ga⟩ : ∃ n, A.tree[a]? = some n := ⟨A.tree[a], List.getElem?_eq_getElem ha⟩
  obtain ⟨nb, gb⟩ : ∃ n, A.tree[b]? = some n := ⟨A.tree[b], List.getElem?_eq_getElem hb⟩
  have ga2 : A2.tree[a]? = some (renameKids (sw a b) na) := by rw [p2, ga]; rfl
  have gb2 : A2.tree[b]? = some (renameKids (sw a b) nb) := by rw [p2, gb]; rfl
  -- the swap
  obtain ⟨A3, e3, r3, l3, p3⟩ : ∃ A3, A2.swapTree a b = .ok A3 ∧ A3.root = A2.root ∧
      A3.tree.length = A2.tree.length ∧ ∀ j : Nat, A3.tree[j]? = A2.tree[sw a b j]? := by
    refine ⟨{ A2 with tree := (A2.tree.set a (renameKids (sw a b) nb)).set b (renameKids (sw a b) na) },
      by simp [Avl.swapTree, Avl.get_of ga2, Avl.get_of gb2], rfl, by simp, fun j => ?_⟩
    simp only [List.getElem?_set, List.length_set]
    by_cases h1 : b = j
    · subst h1; simp [sw_b, l2, hb, ga2]
    · by_cases h2 : a = j
      · subst h2; simp [sw_a, h1, l2, ha, gb2]
      · simp [h1, h2, sw_of_ne (Ne.symm h2) (Ne.symm h1)]
  have ga3 : A3.tree[a]? = some (renameKids (sw a b) nb) := by rw [p3, sw_a, gb2]
  have gb3 : A3.tree[b]? = some (renameKids (sw a b) na) := by rw [p3, sw_b, ga2]
  have swlt : ∀ k, k < A.tree.length → sw a b k < A.tree.length := by
    intro k hk; exact sw_lt ha hb hk
  have kid : ∀ (i : Nat) (n : AvlNode α) (o : Option Nat), A.tree[i]? = some n → (o = n.left ∨ o = n.right) →
      ∀ k, o.map (sw a b) = some k → k < A.tree.length := by
    intro i n o h1 h2 k h3
    cases o with
    | none => simp at h3
    | some k' =>
      simp only [Option.map_some, Option.some.injEq] at h3
      subst h3
      apply swlt
      rcases h2 with h2 | h2
      · obtain ⟨_, m, g, _⟩ := hc.left i n k' h1 h2.symm; exact getElem?_lt g
      · obtain ⟨_, m, g, _⟩ := hc.right i n k' h1 h2.symm; exact getElem?_lt g
  obtain ⟨A4, e4, r4, l4, p4⟩ := setParentOpt_pt (A := A3) (to := nb.left.map (sw a b)) (i := a)
    (by intro k hk; have := kid b nb _ gb (.inl rfl) k hk; omega)
  obtain ⟨A5, e5, r5, l5, p5⟩ := setParentOpt_pt (A := A4) (to := nb.right.map (sw a b)) (i := a)
    (by intro k hk; have := kid b nb _ gb (.inr rfl) k hk; omega)
  obtain ⟨A6, e6, r6, l6, p6⟩ := setParentOpt_pt (A := A5) (to := na.left.map (sw a b)) (i := b)
    (by intro k hk; have := kid a na _ ga (.inl rfl) k hk; omega)
  obtain ⟨A7, e7, r7, l7, p7⟩ := setParentOpt_pt (A := A6) (to := na.right.map (sw a b)) (i := b)
    (by intro k hk; have := kid a na _ ga (.inr rfl) k hk; omega)
  refine ⟨A7, ?_, by rw [r7, r6, r5, r4, r3, r2], by omega, ?_⟩
  · have hroot : Avl.swapRoot A.root a b = A.root.map (sw a b) := by
      cases hr : A.root with
      | none => rfl
      | some r => simp only [Avl.swapRoot, Option.map_some, sw]; grind
    have g4 : A4.tree[a]? = _ := (p4 a).trans (by rw [ga3, Option.map_some])
    have g5 : A5.tree[b]? = _ := (p5 b).trans (by rw [p4 b, gb3, Option.map_some, Option.map_some])
    have g6 : A6.tree[b]? = _ := (p6 b).trans (by rw [g5, Option.map_some])
    unfold Avl.swapBacking
    rw [if_neg hab]
    simp only [hroot, e1, e2, e3, Res.ok_bind, Avl.get_of ga3, renameKids, e4,
      Avl.get_of g4, e5, Avl.get_of g5, e6, Avl.get_of g6, e7]
  · intro j
    rw [p7, p6, p5, p4, p3, sw_sw, p2]
    cases hg : A.tree[j]? with
    | none => simp
    | some n =>
      simp only [Option.map_some, Option.some.injEq, AvlNode.rename, renameKids, AvlNode.mk.injEq,
        and_true, true_and]
      have inj : ∀ o : Option Nat, o.map (sw a b) = some (sw a b j) ↔ o = some j := by
        intro o
        cases o with
        | none => simp
        | some k =>
          simp only [Option.map_some, Option.some.injEq]
          exact ⟨fun h => sw_inj h, fun h => by rw [h]⟩
      simp only [inj]
      have down : ∀ (i : Nat) (m : AvlNode α), A.tree[i]? = some m → (m.left = some j ∨ m.right = some j) →
          n.parent = some i := by
        intro i m h1 h2
        rcases h2 with h2 | h2
        · obtain ⟨_, m', g, g'⟩ := hc.left i m j h1 h2
          rw [hg] at g; cases g; exact g'
        · obtain ⟨_, m', g, g'⟩ := hc.right i m j h1 h2
          rw [hg] at g; cases g; exact g'
      cases hp : n.parent with
      | none =>
        have h1 : ∀ (i : Nat) (m : AvlNode α), A.tree[i]? = some m → m.left ≠ some j ∧ m.right ≠ some j := by
          intro i m h
          constructor <;> intro h' 
          · have := down i m h (.inl h'); simp [hp] at this
          · have := down i m h (.inr h'); simp [hp] at this
        simp [h1 a na ga, h1 b nb gb]
      | some q =>
        have h1 : ∀ (i : Nat) (m : AvlNode α), i ≠ q → A.tree[i]? = some m → m.left ≠ some j ∧ m.right ≠ some j := by
          intro i m hi h
          constructor <;> intro h' 
          · have := down i m h (.inl h'); rw [hp] at this; exact hi (Option.some.inj this).symm
          · have := down i m h (.inr h'); rw [hp] at this; exact hi (Option.some.inj this).symm
        obtain ⟨_, m, gm, hm⟩ := hc.parent j n q hg hp
        by_cases hqa : q = a
        · subst hqa
          rw [ga] at gm; cases gm
          have := h1 b nb (Ne.symm hab) gb
          simp only [this, if_false, Option.map_some, sw_a]
          rcases hm with hm | hm <;> simp [hm]
        · by_cases hqb : q = b
          · subst hqb
            rw [gb] at gm; cases gm
            have := h1 a na hab ga
            simp only [this, if_false, Option.map_some, sw_b]
            rcases hm with hm | hm <;> simp [hm]
          · have h2 := h1 a na (Ne.symm hqa) ga
            have h3 := h1 b nb (Ne.symm hqb) gb
            simp [h2, h3, sw_of_ne hqa hqb]

namespace ITree

def rename (σ : Nat → Nat) : ITree α → ITree α
  | nil => nil
  | node i h d l r => node (σ i) h d (l.rename σ) (r.rename σ)

theorem rename_ptr (σ : Nat → Nat) (t : ITree α) : (t.rename σ).ptr = t.ptr.map σ := by
  cases t <;> rfl

theorem rename_sh (σ : Nat → Nat) (t : ITree α) : (t.rename σ).sh = t.sh := by
  cases t <;> rfl

theorem rename_idxs (σ : Nat → Nat) (t : ITree α) : (t.rename σ).idxs = t.idxs.map σ := by
  induction t with
  | nil => rfl
  | node i h d l r ihl ihr => simp [rename, idxs, ihl, ihr]

theorem rename_inord (σ : Nat → Nat) (t : ITree α) :
    (t.rename σ).inord = t.inord.map (fun x => (σ x.1, x.2)) := by
  induction t with
  | nil => rfl
  | node i h d l r ihl ihr => simp [rename, inord, ihl, ihr]

theorem rename_erase (σ : Nat → Nat) (t : ITree α) : (t.rename σ).erase = t.erase := by
  induction t with
  | nil => rfl
  | node i h d l r ihl ihr => simp [rename, erase, ihl, ihr]

theorem rename_bal {σ : Nat → Nat} {t : ITree α} (h : t.Bal) : (t.rename σ).Bal := by
  induction t with
  | nil => trivial
  | node i hh d l r ihl ihr =>
    obtain ⟨h1, h2, h3, h4, h5⟩ := h
    refine ⟨?_, ?_, ?_, ihl h4, ihr h5⟩ <;> simpa [rename_sh]

theorem rename_comp (σ τ : Nat → Nat) (t : ITree α) :
    (t.rename σ).rename τ = t.rename (fun i => τ (σ i)) := by
  induction t with
  | nil => rfl
  | node i h d l r ihl ihr => simp [rename, ihl, ihr]

theorem rename_id (t : ITree α) : t.rename (fun i => i) = t := by
  induction t with
  | nil => rfl
  | node i h d l r ihl ihr => simp [rename, ihl, ihr]

theorem Rep.rename {tr tr' : List (AvlNode α)} {σ : Nat → Nat} {p : Option Nat} {t : ITree α}
    (h : Rep tr p t) (hσ : ∀ j : Nat, tr'[σ j]? = (tr[j]?).map (AvlNode.rename σ)) :
    Rep tr' (p.map σ) (t.rename σ) := by
  induction t generalizing p with
  | nil => trivial
  | node i hh d l r ihl ihr =>
    obtain ⟨h1, h2, h3⟩ := h
    refine ⟨?_, ihl h2, ihr h3⟩
    rw [hσ, h1]; simp [AvlNode.rename, rename_ptr]

/-- A left sibling comes before its right sibling in pre-order. -/
theorem Rep.sib_order {tr : List (AvlNode α)} {p : Option Nat} {t : ITree α} (h : Rep tr p t)
    (hnd : t.idxs.Nodup) {q x y : Nat} {m : AvlNode α} (hq : q ∈ t.idxs) (hm : tr[q]? = some m)
    (hx : m.left = some x) (hy : m.right = some y) :
    ∃ P Q, t.idxs = P ++ Q ∧ x ∈ P ∧ y ∈ Q := by
  induction t generalizing p with
  | nil => simp [idxs] at hq
  | node i hh d l r ihl ihr =>
    obtain ⟨h1, h2, h3⟩ := h
    simp only [idxs, List.nodup_cons, List.nodup_append, List.mem_append, not_or] at hnd
    simp only [idxs, List.mem_cons, List.mem_append] at hq
    rcases hq with rfl | hq | hq
    · rw [h1] at hm; cases hm
      exact ⟨q :: l.idxs, r.idxs, by simp [idxs], by simp [ptr_mem hx], ptr_mem hy⟩
    · obtain ⟨P, Q, e, hP, hQ⟩ := ihl h2 hnd.2.1 hq
      exact ⟨i :: P, Q ++ r.idxs, by simp [idxs, e], by simp [hP], by simp [hQ]⟩
    · obtain ⟨P, Q, e, hP, hQ⟩ := ihr h3 hnd.2.2.1 hq
      exact ⟨i :: (l.idxs ++ P), Q, by simp [idxs, e], by simp [hP], hQ⟩

end ITree

/-! ## Pre-order iteration -/

theorem preorderLoop_spec {A : Avl α} : ∀ (fuel : Nat) (ts : List (ITree α)),
    (∀ t ∈ ts, ∃ p, Rep A.tree p t) → (ts.flatMap ITree.idxs).length ≤ fuel →
    A.preorderLoop fuel (ts.filterMap ITree.ptr) = .ok (ts.flatMap ITree.idxs) := by
  intro fuel
  induction fuel with
  | zero =>
    intro ts h hl
    have : ts.filterMap ITree.ptr = [] := by
      rw [List.filterMap_eq_nil_iff]
      intro t ht
      cases t with
      | nil => rfl
      | node i _ _ _ _ =>
        have : i ∈ ts.flatMap ITree.idxs := List.mem_flatMap.2 ⟨_, ht, by simp [idxs]⟩
        have h0 : ts.flatMap ITree.idxs = [] := List.eq_nil_of_length_eq_zero (by omega)
        simp [h0] at this
    rw [this]
    have h0 : ts.flatMap ITree.idxs = [] := List.eq_nil_of_length_eq_zero (by omega)
    simp [Avl.preorderLoop, h0]
  | succ fuel ih =>
    intro ts
    induction ts with
    | nil => intro _ _; simp [Avl.preorderLoop]
    | cons t ts iht =>
      intro h hl
      cases t with
      | nil =>
        have := iht (fun t ht => h t (by simp [ht])) (by simpa [idxs] using hl)
        rw [List.filterMap_cons_none rfl, List.flatMap_cons]
        simpa [idxs] using this
      | node i hh d l r =>
        obtain ⟨p, g1, g2, g3⟩ := h (.node i hh d l r) (by simp)
        have := ih (l :: r :: ts) (by
          intro t ht
          simp only [List.mem_cons] at ht
          rcases ht with rfl | rfl | ht
          · exact ⟨_, g2⟩
          · exact ⟨_, g3⟩
          · exact h t (by simp [ht])) (by simp [idxs] at hl ⊢; omega)
        have hst : Avl.pushOpt l.ptr (Avl.pushOpt r.ptr (ts.filterMap ITree.ptr))
            = (l :: r :: ts).filterMap ITree.ptr := by
          cases hl' : l.ptr <;> cases hr' : r.ptr <;> simp [hl', hr', Avl.pushOpt]
        simp only [List.filterMap_cons, ptr_node, Avl.preorderLoop, Avl.get_of g1, Res.ok_bind]
        rw [hst, this]
        simp [idxs]

theorem Avl.preorder_spec {cmp : α → α → Ordering} {A : Avl α} {T : ITree α} (h : AvlWF cmp A T) :
    A.preorder = .ok T.idxs := by
  have := preorderLoop_spec (A := A) A.tree.length [T] (by simpa using ⟨_, h.zip.rep⟩)
    (by simpa using (h.perm.length_eq ▸ (by simp)))
  have hroot : A.root = T.ptr := h.zip.root
  unfold Avl.preorder
  rw [hroot]
  cases hT : T.ptr <;> simpa [hT] using this

/-! ## The reordering loop -/

theorem reorderLoop_spec {A0 : Avl α} {T : ITree α} (hnd0 : T.idxs.Perm (List.range A0.tree.length)) :
    ∀ (rest done : List Nat) (A : Avl α) (σ : Nat → Nat) (mapping inv : List Nat),
    T.idxs = done ++ rest →
    A.tree.length = A0.tree.length →
    Zip A (T.rename σ) [] →
    mapping.length = A0.tree.length → inv.length = A0.tree.length →
    (∀ j, j < A0.tree.length → σ j < A0.tree.length ∧ mapping[j]? = some (σ j) ∧ inv[σ j]? = some j) →
    (∀ j, j < A0.tree.length → ∃ k, k < A0.tree.length ∧ σ k = j) →
    done.map σ = List.range done.length →
    ∃ A' τ, A.reorderLoop rest done.length mapping inv = .ok A' ∧
      A'.tree.length = A0.tree.length ∧ Zip A' (T.rename τ) [] ∧
      T.idxs.map τ = List.range A0.tree.length := by
  intro rest
  induction rest with
  | nil =>
    intro done A σ mapping inv hT hlen hz _ _ _ _ hdone
    refine ⟨A, σ, rfl, hlen, hz, ?_⟩
    have := hnd0.length_eq
    simp only [List.append_nil] at hT
    rw [hT] at this ⊢
    rw [hdone, this, List.length_range]
  | cons x rest ih =>
    intro done A σ mapping inv hT hlen hz hml hil hσ hsurj hdone
    have hnd : T.idxs.Nodup := hnd0.nodup_iff.2 List.nodup_range
    have hlenT := hnd0.length_eq
    simp only [List.length_range] at hlenT
    have hxlt : x < A0.tree.length := by
      have : x ∈ T.idxs := by rw [hT]; simp
      simpa using hnd0.mem_iff.1 this
    have hilt : done.length < A0.tree.length := by
      rw [← hlenT, hT]; simp
    obtain ⟨hσx, hmx, hix⟩ := hσ x hxlt
    obtain ⟨j0, hj0, hj0σ⟩ := hsurj _ hilt
    obtain ⟨_, hm0, hi0⟩ := hσ j0 hj0
    have hinj : ∀ j k, j < A0.tree.length → k < A0.tree.length → σ j = σ k → j = k := by
      intro j k hj hk h
      have h1 := (hσ j hj).2.2
      have h2 := (hσ k hk).2.2
      rw [h, h2] at h1
      exact (Option.some.inj h1).symm
    -- permutation of the current indices
    have hperm : (T.rename σ).idxs.Perm (List.range A.tree.length) := by
      rw [rename_idxs, hlen]
      have h1 : (T.idxs.map σ).Nodup := by
        have := hz.nodup
        simpa [rename_idxs, ctxIdxs] using this
      refine (List.perm_ext_iff_of_nodup h1 List.nodup_range).2 ?_
      intro a
      simp only [List.mem_map, List.mem_range]
      constructor
      · rintro ⟨k, hk, rfl⟩
        exact (hσ k (by simpa using hnd0.mem_iff.1 hk)).1
      · intro ha
        obtain ⟨k, hk, hka⟩ := hsurj a ha
        exact ⟨k, hnd0.mem_iff.2 (by simpa using hk), hka⟩
    have hcoh := hz.coh hperm
    have hsib : ∀ (p : Nat) (m : AvlNode α), A.tree[p]? = some m →
        ¬(m.left = some done.length ∧ m.right = some (σ x)) := by
      rintro p m hp ⟨h1, h2⟩
      have hpm : p ∈ (T.rename σ).idxs := hperm.mem_iff.2 (List.mem_range.2 (getElem?_lt hp))
      obtain ⟨P, Q, e, hP, hQ⟩ := ITree.Rep.sib_order hz.rep
        (hperm.nodup_iff.2 List.nodup_range) hpm hp h1 h2
      rw [rename_idxs, hT, List.map_append, List.map_cons, hdone] at e
      have hnd' := hperm.nodup_iff.2 List.nodup_range
      rw [rename_idxs, hT, List.map_append, List.map_cons, hdone] at hnd'
      -- `σ x` is at position `done.length`, and `done.length` occurs later or is equal
      by_cases hlt : P.length ≤ done.length
      · have hPt : P = (List.range done.length).take P.length := by
          have := congrArg (List.take P.length) e
          rw [List.take_append_of_le_length (by simpa using hlt)] at this
          simpa using this.symm
        rw [hPt] at hP
        have := List.mem_of_mem_take hP
        simp at this
      · have hQin : σ x ∈ P := by
          have := congrArg (fun l => l[done.length]?) e
          rw [List.getElem?_append_right (by simp), List.getElem?_append_left (by omega)] at this
          simp at this
          exact List.mem_of_getElem? this.symm
        rw [e] at hnd'
        exact (List.nodup_append.1 hnd').2.2 _ hQin _ hQ rfl
    obtain ⟨A', e1, e2, e3, e4⟩ := swapBacking_spec hcoh (a := done.length) (b := σ x) (by omega) (by omega) hsib
    let τ : Nat → Nat := fun i => sw done.length (σ x) (σ i)
    have hτx : τ x = done.length := sw_b _ _
    have hτ0 : τ j0 = σ x := by simp only [τ, hj0σ, sw_a]
    have hτo : ∀ j, j < A0.tree.length → j ≠ x → j ≠ j0 → τ j = σ j := by
      intro j hj h1 h2
      refine sw_of_ne ?_ ?_
      · intro h; exact h2 (hinj j j0 hj hj0 (by omega))
      · intro h; exact h1 (hinj j x hj hxlt h)
    have hz' : Zip A' (T.rename τ) [] := by
      have hr := ITree.Rep.rename hz.rep e4
      rw [rename_comp] at hr
      refine ⟨hr, trivial, ?_, ?_⟩
      · rw [e2, hz.root]
        simp only [ctxRoot, rename_ptr, Option.map_map]
        rfl
      · have h0 := hz.nodup
        simp only [ctxIdxs, List.append_nil, rename_idxs] at h0 ⊢
        have : T.idxs.map τ = (T.idxs.map σ).map (sw done.length (σ x)) := by simp [τ]
        rw [this]
        exact h0.map _ (fun a b hab h => hab (sw_inj h))
    have hmap : ∀ j, j < A0.tree.length → (((mapping.set x done.length).set j0 (σ x)))[j]? = some (τ j) := by
      intro j hj
      simp only [List.getElem?_set, List.length_set, hml]
      by_cases h1 : j0 = j
      · subst h1; simp [hj0, hτ0]
      · by_cases h2 : x = j
        · subst h2; simp [h1, hxlt, hτx]
        · simp [h1, h2, (hσ j hj).2.1, hτo j hj (Ne.symm h2) (Ne.symm h1)]
    have hinv : ∀ j, j < A0.tree.length → ((inv.set (σ x) j0).set done.length x)[τ j]? = some j := by
      intro j hj
      simp only [List.getElem?_set, List.length_set, hil]
      by_cases h2 : j = x
      · subst h2; simp [hτx, hilt]
      · by_cases h1 : j = j0
        · subst h1
          have hne : done.length ≠ σ x := by
            intro h; exact h2 (hinj _ _ hj hxlt (by omega))
          simp [hτ0, hne, hσx]
        · have h3 : done.length ≠ σ j := by
            intro h; exact h1 (hinj _ _ hj hj0 (by omega))
          have h4 : σ x ≠ σ j := by
            intro h; exact h2 (hinj _ _ hj hxlt h.symm)
          rw [hτo j hj h2 h1]
          simp [h3, h4, (hσ j hj).2.2]
    obtain ⟨A'', τ', f1, f2, f3, f4⟩ := ih (done ++ [x]) A' τ
      ((mapping.set x done.length).set j0 (σ x)) ((inv.set (σ x) j0).set done.length x)
      (by rw [hT]; simp) (by omega) hz' (by simp [hml]) (by simp [hil])
      (fun j hj => ⟨by
        show sw done.length (σ x) (σ j) < A0.tree.length
        exact sw_lt hilt hσx (hσ j hj).1, hmap j hj, hinv j hj⟩)
      (by
        intro j hj
        obtain ⟨k, hk, hk'⟩ := hsurj (sw done.length (σ x) j) (sw_lt hilt hσx hj)
        exact ⟨k, hk, by simp only [τ, hk', sw_sw]⟩)
      (by
        have : done.map τ = done.map σ := by
          apply List.map_congr_left
          intro j hj
          have hjl : j < A0.tree.length := by
            have : j ∈ T.idxs := by rw [hT]; simp [hj]
            simpa using hnd0.mem_iff.1 this
          have hjσ : σ j < done.length := by
            have : σ j ∈ done.map σ := List.mem_map_of_mem hj
            rw [hdone] at this; simpa using this
          refine hτo j hjl ?_ ?_
          · rintro rfl
            rw [hT] at hnd
            exact (List.nodup_append.1 hnd).2.2 j hj j (by simp) rfl
          · rintro rfl; omega
        rw [List.map_append, this, hdone, List.map_cons, List.map_nil, hτx]
        simp [List.range_succ])
    refine ⟨A'', τ', ?_, f2, f3, f4⟩
    have hi0' : inv[done.length]? = some j0 := by rw [← hj0σ]; exact hi0
    simp only [Avl.reorderLoop, Avl.vget, hmx, Res.unwrap_some, Res.ok_bind, e1, Avl.vset, hml, hxlt, if_true,
      hi0', List.length_set, hj0, hil, hσx, hilt]
    simpa using f1

theorem Avl.reorder_spec {cmp : α → α → Ordering} {A : Avl α} {T : ITree α} (h : AvlWF cmp A T) :
    ∃ A' τ, A.reorder = .ok A' ∧ AvlWF cmp A' (T.rename τ) ∧
      (T.rename τ).idxs = List.range A.tree.length ∧ A'.tree.length = A.tree.length := by
  have hlen := h.perm.length_eq
  simp only [List.length_range] at hlen
  obtain ⟨A', τ, e, l, z, hi⟩ := reorderLoop_spec (A0 := A) (T := T) h.perm T.idxs [] A (fun i => i)
    (List.range A.tree.length) (List.range A.tree.length) (by simp) rfl
    (by rw [rename_id]; exact h.zip) (by simp) (by simp)
    (by intro j hj; simp [hj]) (by intro j hj; exact ⟨j, hj, rfl⟩) (by simp)
  refine ⟨A', τ, ?_, ⟨z, rename_bal h.bal, ?_, ?_⟩, ?_, l⟩
  · simp only [Avl.reorder, Avl.preorder_spec h, Res.ok_bind, hlen]
    exact e
  · rw [rename_inord, List.map_map]
    exact h.sorted
  · rw [rename_idxs, hi, l]
  · rw [rename_idxs, hi]

end Xdvdfs
