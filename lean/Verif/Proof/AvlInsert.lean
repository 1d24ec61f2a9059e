import Verif.Proof.AvlBal

/-! # Insertion: well-formedness invariant and refinement of `Spec.accept` -/

namespace Xdvdfs

open ITree

/-- The arena invariant. -/
structure AvlWF (cmp : α → α → Ordering) (A : Avl α) (T : ITree α) : Prop where
  zip : Zip A T []
  bal : T.Bal
  sorted : (T.inord.map Prod.snd).Pairwise (fun a b => cmp a b = .lt)
  perm : T.idxs.Perm (List.range A.tree.length)

theorem ITree.inord_idxs (T : ITree α) : (T.inord.map Prod.fst).Perm T.idxs := by
  induction T with
  | nil => exact .refl _
  | node i h d l r ihl ihr =>
    simp only [inord, idxs, List.map_append, List.map_cons]
    exact List.perm_middle.trans (.cons _ (ihl.append ihr))

theorem Rep.get_of_mem {tr : List (AvlNode α)} {p : Option Nat} {T : ITree α} (h : Rep tr p T)
    {i : Nat} {d : α} (hm : (i, d) ∈ T.inord) : ∃ n, tr[i]? = some n ∧ n.data = d := by
  induction T generalizing p with
  | nil => simp [inord] at hm
  | node k hh e l r ihl ihr =>
    obtain ⟨h1, h2, h3⟩ := h
    simp only [inord, List.mem_append, List.mem_cons, Prod.mk.injEq] at hm
    rcases hm with hm | ⟨rfl, rfl⟩ | hm
    · exact ihl h2 hm
    · exact ⟨_, h1, rfl⟩
    · exact ihr h3 hm

/-- The elements of the tree are exactly the elements of the backing vector. -/
theorem AvlWF.mem_inord {cmp : α → α → Ordering} {A : Avl α} {T : ITree α} (h : AvlWF cmp A T)
    {i : Nat} {d : α} : (i, d) ∈ T.inord ↔ (A.tree.map AvlNode.data)[i]? = some d := by
  constructor
  · intro hm
    obtain ⟨n, h1, h2⟩ := Rep.get_of_mem h.zip.rep hm
    simp [h1, h2]
  · intro hg
    simp only [List.getElem?_map, Option.map_eq_some_iff] at hg
    obtain ⟨n, h1, h2⟩ := hg
    have hi : i ∈ T.idxs := h.perm.mem_iff.2 (List.mem_range.2 (getElem?_lt h1))
    have := T.inord_idxs.mem_iff.2 hi
    obtain ⟨⟨i', d'⟩, hm, rfl⟩ := List.mem_map.1 this
    obtain ⟨n', h3, h4⟩ := Rep.get_of_mem h.zip.rep hm
    rw [h1] at h3; cases h3
    rw [← h2, h4]; exact hm

theorem AvlWF.mem_data {cmp : α → α → Ordering} {A : Avl α} {T : ITree α} (h : AvlWF cmp A T)
    {d : α} : d ∈ A.tree.map AvlNode.data ↔ d ∈ T.inord.map Prod.snd := by
  rw [List.mem_iff_getElem?]
  constructor
  · rintro ⟨i, hi⟩
    exact List.mem_map.2 ⟨(i, d), h.mem_inord.2 hi, rfl⟩
  · intro hm
    obtain ⟨⟨i, d'⟩, hm', rfl⟩ := List.mem_map.1 hm
    exact ⟨i, h.mem_inord.1 hm'⟩

/-- Attaching a fresh leaf at the hole. -/
theorem attach {A A' : Avl α} {f : Frame α} {fs : List (Frame α)} {x : α}
    (hd : f.dir = .left ∨ f.dir = .right)
    (hz : Zip A (f.fill .nil) fs)
    (hlt : ∀ j ∈ f.i :: (f.sib.idxs ++ ctxIdxs fs), j < A.tree.length)
    (hA' : A.modify f.i (fun n => match f.dir with
      | .left => { n with left := some A.tree.length }
      | _ => { n with right := some A.tree.length }) = .ok A') :
    A'.tree.length = A.tree.length ∧
    Zip { A' with tree := A'.tree ++ [AvlNode.new x (some f.i)] }
      (.node A.tree.length 1 x .nil .nil) (f :: fs) := by
  have hz' := (Zip.up_iff hd).2 hz
  obtain ⟨_, ⟨_, g1, g2, g3⟩, g4, g5⟩ := hz'
  obtain ⟨A1, e, a1, b1, c1, d1⟩ := Avl.modify_spec (fun n => match f.dir with
      | .left => { n with left := some A.tree.length }
      | _ => { n with right := some A.tree.length }) g1
  rw [hA'] at e; cases e
  have happ : ∀ j, j < A.tree.length →
      (A'.tree ++ [AvlNode.new x (some f.i)])[j]? = A'.tree[j]? := by
    intro j hj; rw [List.getElem?_append_left (by omega)]
  simp only [ITree.idxs, List.nil_append, ctxIdxs, List.nodup_cons, List.mem_append, not_or] at g5
  refine ⟨d1, ⟨⟨?_, trivial, trivial⟩, ⟨hd, ?_, ?_, ?_⟩, ?_, ?_⟩⟩
  · simp only [ctxPtr]
    rw [List.getElem?_append_right (by omega)]
    simp [d1, AvlNode.new]
  · simp only
    rw [happ _ (hlt _ (by simp)), a1]
    rcases hd with hd | hd <;> simp [hd, Frame.lptr, Frame.rptr]
  · refine g2.frame ?_
    intro j hj
    rw [happ j (hlt j (by simp [hj])), b1 j (by rintro rfl; exact g5.1.1 hj)]
  · refine g3.frame ?_
    intro j hj
    rw [happ j (hlt j (by simp [hj])), b1 j (by rintro rfl; exact g5.1.2 hj)]
  · simp only [c1, g4, ctxRoot]
  · simp only [ITree.idxs, List.append_nil, ctxIdxs, List.cons_append, List.nil_append, List.nodup_cons]
    refine ⟨?_, ?_, g5.2⟩
    · intro hm; exact absurd (hlt _ hm) (by omega)
    · simp only [List.mem_append, not_or]; exact g5.1

theorem insertDescend_spec {cmp : α → α → Ordering} [Std.TransCmp cmp] (x : α) (t : ITree α) :
    ∀ (fs : List (Frame α)) (A : Avl α) (cur fuel : Nat), Zip A t fs → t.ptr = some cur →
    t.Bal → CtxOK t.sh fs → (t.inord.map Prod.snd).Pairwise (fun a b => cmp a b = .lt) →
    (∀ j ∈ t.idxs ++ ctxIdxs fs, j < A.tree.length) → t.idxs.length ≤ fuel →
    (Avl.insertDescend cmp x fuel A cur = .ok none ∧ ∃ y ∈ t.inord.map Prod.snd, cmp x y = .eq) ∨
    ∃ A' p fs' L R, Avl.insertDescend cmp x fuel A cur = .ok (some (A', p)) ∧
      A'.tree.length = A.tree.length ∧
      Zip { A' with tree := A'.tree ++ [AvlNode.new x (some p)] }
        (.node A.tree.length 1 x .nil .nil) fs' ∧
      CtxOK 0 fs' ∧ ctxPre fs' = ctxPre fs ++ L ∧ ctxPost fs' = R ++ ctxPost fs ∧
      t.inord = L ++ R ∧ (∀ y ∈ L.map Prod.snd, cmp y x = .lt) ∧ (∀ y ∈ R.map Prod.snd, cmp x y = .lt) := by
  induction t with
  | nil => intro fs A cur fuel _ hk; simp at hk
  | node i h d l r ihl ihr =>
    intro fs A cur fuel hz hk hb hok hs hlt hfuel
    simp only [ptr_node, Option.some.injEq] at hk; subst hk
    obtain ⟨b1, b2, b3, b4, b5⟩ := hb
    obtain ⟨fuel, rfl⟩ : ∃ n, fuel = n + 1 := ⟨fuel - 1, by simp [idxs] at hfuel; omega⟩
    simp only [inord, List.map_append, List.map_cons, List.pairwise_append, List.pairwise_cons,
      List.mem_cons] at hs
    obtain ⟨hsl, ⟨hsd, hsr⟩, hsx⟩ := hs
    have hget := Avl.get_of hz.rep.1
    simp only [idxs, List.length_cons, List.length_append] at hfuel
    cases hc : cmp x d with
    | eq =>
      left
      refine ⟨by simp [Avl.insertDescend, hget, hc], d, by simp [inord], hc⟩
    | lt =>
      have hR : ∀ y ∈ r.inord.map Prod.snd, cmp x y = .lt := fun y hy =>
        Std.TransCmp.lt_trans hc (hsd y hy)
      have hz1 : Zip A l (⟨.left, i, h, d, r⟩ :: fs) := (Zip.up_iff (.inl rfl)).2 hz
      have hlt1 : ∀ j ∈ l.idxs ++ ctxIdxs ((⟨.left, i, h, d, r⟩ : Frame α) :: fs), j < A.tree.length := by
        intro j hj; apply hlt
        simp only [idxs, ctxIdxs, List.mem_append, List.mem_cons] at hj ⊢; grind
      have hok1 : CtxOK l.sh ((⟨.left, i, h, d, r⟩ : Frame α) :: fs) := ⟨b2, b3, b1, b5, hok⟩
      cases l with
      | nil =>
        right
        obtain ⟨A', e, _⟩ := Avl.modify_spec (fun n => { n with left := some A.tree.length }) hz.rep.1
        obtain ⟨hl', hz'⟩ := attach (f := ⟨.left, i, h, d, r⟩) (x := x) (.inl rfl) hz
          (by intro j hj; exact hlt1 j (by simpa [idxs, ctxIdxs] using hj)) e
        refine ⟨A', i, _, [], (i, d) :: r.inord, ?_, hl', hz', hok1, ?_, ?_, by simp [inord], by simp, ?_⟩
        · simp [Avl.insertDescend, hget, hc, e]
        · simp [ctxPre]
        · simp [ctxPost]
        · intro y hy
          simp only [List.map_cons, List.mem_cons] at hy
          rcases hy with rfl | hy
          · exact hc
          · exact hR y hy
      | node i' h' d' l' r' =>
        have hstep : Avl.insertDescend cmp x (fuel + 1) A i = Avl.insertDescend cmp x fuel A i' := by
          simp [Avl.insertDescend, hget, hc]
        rw [hstep]
        rcases ihl _ A i' fuel hz1 rfl b4 hok1 hsl hlt1 (by omega) with ⟨e, y, hy, hcy⟩ | 
          ⟨A', p, fs', L, R, e, q1, q2, q3, q4, q5, q6, q7, q8⟩
        · left; exact ⟨e, y, by rw [inord]; simp only [List.map_append, List.mem_append]; exact .inl hy, hcy⟩
        · right
          refine ⟨A', p, fs', L, R ++ (i, d) :: r.inord, e, q1, q2, q3, ?_, ?_, ?_, q7, ?_⟩
          · simpa [ctxPre] using q4
          · simpa [ctxPost] using q5
          · rw [inord, q6]; simp
          · intro y hy
            simp only [List.map_append, List.map_cons, List.mem_append, List.mem_cons] at hy
            rcases hy with hy | rfl | hy
            · exact q8 y hy
            · exact hc
            · exact hR y hy
    | gt =>
      have hc' : cmp d x = .lt := Std.OrientedCmp.lt_of_gt hc
      have hL : ∀ y ∈ l.inord.map Prod.snd, cmp y x = .lt := fun y hy =>
        Std.TransCmp.lt_trans (hsx y hy d (.inl rfl)) hc'
      have hz1 : Zip A r (⟨.right, i, h, d, l⟩ :: fs) := (Zip.up_iff (.inr rfl)).2 hz
      have hlt1 : ∀ j ∈ r.idxs ++ ctxIdxs ((⟨.right, i, h, d, l⟩ : Frame α) :: fs), j < A.tree.length := by
        intro j hj; apply hlt
        simp only [idxs, ctxIdxs, List.mem_append, List.mem_cons] at hj ⊢; grind
      have hok1 : CtxOK r.sh ((⟨.right, i, h, d, l⟩ : Frame α) :: fs) :=
        ⟨b3, b2, by simp only; omega, b4, hok⟩
      cases r with
      | nil =>
        right
        obtain ⟨A', e, _⟩ := Avl.modify_spec (fun n => { n with right := some A.tree.length }) hz.rep.1
        obtain ⟨hl', hz'⟩ := attach (f := ⟨.right, i, h, d, l⟩) (x := x) (.inr rfl) hz
          (by intro j hj; exact hlt1 j (by simpa [idxs, ctxIdxs] using hj)) e
        refine ⟨A', i, _, l.inord ++ [(i, d)], [], ?_, hl', hz', hok1, ?_, ?_, by simp [inord], ?_, by simp⟩
        · simp [Avl.insertDescend, hget, hc, e]
        · simp [ctxPre]
        · simp [ctxPost]
        · intro y hy
          simp only [List.map_append, List.map_cons, List.mem_append, List.mem_cons, List.map_nil,
            List.not_mem_nil, or_false] at hy
          rcases hy with hy | rfl
          · exact hL y hy
          · exact hc'
      | node i' h' d' l' r' =>
        have hstep : Avl.insertDescend cmp x (fuel + 1) A i = Avl.insertDescend cmp x fuel A i' := by
          simp [Avl.insertDescend, hget, hc]
        rw [hstep]
        rcases ihr _ A i' fuel hz1 rfl b5 hok1 hsr hlt1 (by omega) with ⟨e, y, hy, hcy⟩ | 
          ⟨A', p, fs', L, R, e, q1, q2, q3, q4, q5, q6, q7, q8⟩
        · left
          refine ⟨e, y, ?_, hcy⟩
          rw [inord]; simp only [List.map_append, List.map_cons, List.mem_append, List.mem_cons]
          exact .inr (.inr hy)
        · right
          refine ⟨A', p, fs', l.inord ++ (i, d) :: L, R, e, q1, q2, q3, ?_, ?_, ?_, ?_, q8⟩
          · simpa [ctxPre] using q4
          · simpa [ctxPost] using q5
          · rw [inord, q6]; simp
          · intro y hy
            simp only [List.map_append, List.map_cons, List.mem_append, List.mem_cons] at hy
            rcases hy with hy | rfl | hy
            · exact hL y hy
            · exact hc'
            · exact q7 y hy

theorem ctxIdxs_length (fs : List (Frame α)) : fs.length ≤ (ctxIdxs fs).length := by
  induction fs with
  | nil => simp
  | cons f fs ih => simp [ctxIdxs]; omega

theorem Rep.idx_lt {tr : List (AvlNode α)} {p : Option Nat} {T : ITree α} (h : Rep tr p T) :
    ∀ j ∈ T.idxs, j < tr.length := by
  induction T generalizing p with
  | nil => simp [idxs]
  | node k hh e l r ihl ihr =>
    obtain ⟨h1, h2, h3⟩ := h
    intro j hj
    simp only [idxs, List.mem_cons, List.mem_append] at hj
    rcases hj with rfl | hj | hj
    · exact getElem?_lt h1
    · exact ihl h2 j hj
    · exact ihr h3 j hj

theorem AvlWF.empty (cmp : α → α → Ordering) : AvlWF cmp Avl.empty (.nil : ITree α) where
  zip := ⟨trivial, trivial, rfl, by simp [idxs, ctxIdxs]⟩
  bal := trivial
  sorted := by simp [inord]
  perm := by simp [idxs, Avl.empty]

theorem AvlWF.data_eq {cmp : α → α → Ordering} {A : Avl α} {T : ITree α} (h : AvlWF cmp A T)
    (xs : List α) (hl : xs.length = A.tree.length) (hx : ∀ i d, (i, d) ∈ T.inord → xs[i]? = some d) :
    A.tree.map AvlNode.data = xs := by
  apply List.ext_getElem?
  intro i
  by_cases hi : i < A.tree.length
  · have : (A.tree.map AvlNode.data)[i]? = some (A.tree[i].data) := by simp [hi]
    rw [this, hx i _ (h.mem_inord.2 this)]
  · rw [List.getElem?_eq_none (by simpa using hi), List.getElem?_eq_none (by omega)]

theorem Avl.insert_spec {cmp : α → α → Ordering} [Std.TransCmp cmp] {A : Avl α} {T : ITree α}
    (h : AvlWF cmp A T) (x : α) :
    ∃ A' T', A.insert cmp x = .ok ((Spec.accept cmp (A.tree.map AvlNode.data) x).1, A') ∧
      AvlWF cmp A' T' ∧
      A'.tree.map AvlNode.data = (Spec.accept cmp (A.tree.map AvlNode.data) x).2 ∧
      ((Spec.accept cmp (A.tree.map AvlNode.data) x).1 = false → A' = A) := by
  cases T with
  | nil =>
    have hroot : A.root = none := h.zip.root
    have hlen : A.tree = [] := by
      have := h.perm.length_eq
      simp [idxs] at this
      exact List.eq_nil_of_length_eq_zero this.symm
    refine ⟨{ root := some 0, tree := [AvlNode.new x none] }, .node 0 1 x .nil .nil, ?_, ?_, ?_, ?_⟩
    · simp [Avl.insert, hroot, Spec.accept, hlen]
    · refine ⟨⟨⟨?_, trivial, trivial⟩, trivial, ?_, ?_⟩, ?_, ?_, ?_⟩
      · simp [AvlNode.new, ctxPtr]
      · simp [ctxRoot]
      · simp [idxs, ctxIdxs]
      · simp [Bal]
      · simp [inord]
      · simp [idxs]
    · simp [Spec.accept, hlen, AvlNode.new]
    · simp [Spec.accept, hlen]
  | node i hh d l r =>
    have hlt := Rep.idx_lt h.zip.rep
    have hroot : A.root = some i := h.zip.root
    have hlenT := h.perm.length_eq
    simp only [List.length_range] at hlenT
    rcases insertDescend_spec (cmp := cmp) x _ [] A i (A.tree.length + 1) h.zip rfl h.bal trivial h.sorted
      (by simpa [ctxIdxs] using hlt) (by omega) with ⟨e, y, hy, hcy⟩ |
      ⟨A1, p, fs', L, R, e, q1, q2, q3, q4, q5, q6, q7, q8⟩
    · have hany : (A.tree.map AvlNode.data).any (fun y => cmp x y == .eq) = true := by
        rw [List.any_eq_true]
        exact ⟨y, h.mem_data.2 hy, by simp [hcy]⟩
      have hacc : Spec.accept cmp (A.tree.map AvlNode.data) x = (false, A.tree.map AvlNode.data) := by
        rw [Spec.accept, if_pos hany]
      rw [hacc]
      refine ⟨A, _, ?_, h, rfl, fun _ => rfl⟩
      simp [Avl.insert, hroot, e]
    · have hany : (A.tree.map AvlNode.data).any (fun y => cmp x y == .eq) = false := by
        rw [Bool.eq_false_iff, ne_eq, List.any_eq_true]
        rintro ⟨y, hy, hcy⟩
        rw [h.mem_data, q6, List.map_append, List.mem_append] at hy
        rcases hy with hy | hy
        · have := Std.OrientedCmp.gt_of_lt (q7 y hy); simp [this] at hcy
        · simp [q8 y hy] at hcy
      have hacc : Spec.accept cmp (A.tree.map AvlNode.data) x = (true, A.tree.map AvlNode.data ++ [x]) := by
        rw [Spec.accept, if_neg (by simp [hany])]
      rw [hacc]
      simp only [ctxPre, ctxPost, List.nil_append, List.append_nil] at q4 q5
      -- the rebalance
      have hplugidx : (plug (ITree.node A.tree.length 1 x .nil .nil) fs').inord
          = L ++ (A.tree.length, x) :: R := by
        rw [plug_inord, q4, q5]; simp [inord]
      have hfs : fs'.length ≤ A.tree.length := by
        have h1 := ctxIdxs_length fs'
        have h2 := (plug_idxs (ITree.node A.tree.length 1 x .nil .nil) fs').length_eq
        have h3 := (plug (ITree.node A.tree.length 1 x .nil .nil) fs').inord_idxs.length_eq
        rw [hplugidx] at h3
        have h4 := (ITree.node i hh d l r).inord_idxs.length_eq
        rw [q6] at h4
        simp [idxs] at h2 h3 h4 hlenT
        omega
      have hleafget : A1.tree.length = A.tree.length := q1
      obtain ⟨A2, e2, z2, l2⟩ := q2.updateHeight
      simp only [sh_nil] at z2
      have z2' : Zip A2 (ITree.node A.tree.length 1 x .nil .nil) fs' := by simpa using z2
      have hbf := Avl.balanceFactor_spec z2'.rep
      have hnext := z2'.next rfl
      obtain ⟨A3, T, r1, r2, r3, r4, r5⟩ := rebalance_grown fs' A2 _ A.tree.length (A.tree.length + 2) .leaf
        z2' rfl (by simp [Bal]) (by simp [Grew]) (by simpa using q3) (by omega)
      rw [hplugidx] at r4
      simp only [List.length_append, List.length_cons, List.length_nil] at l2
      have hstep : ({ A1 with tree := A1.tree ++ [AvlNode.new x (some p)] } : Avl α).rebalance A1.tree.length
          = .ok A3 := by
        have hg := Avl.get_of q2.rep.1
        rw [q1]
        simp only [Avl.rebalance, hg, Res.ok_bind, ptr_nil, Option.isNone_none, Bool.and_self,
          Res.assert_true, List.length_append, List.length_cons, List.length_nil, q1]
        rw [show A.tree.length + (0 + 1) + 2 = (A.tree.length + 2) + 1 by omega]
        simp [Avl.rebalanceLoop, e2, hbf, hnext, r1]
      have hwf : AvlWF cmp A3 T := by
        refine ⟨r2, r3, ?_, ?_⟩
        · rw [r4]
          have hs := h.sorted
          rw [q6] at hs
          simp only [List.map_append, List.map_cons, List.pairwise_append, List.pairwise_cons,
            List.mem_cons] at hs ⊢
          refine ⟨hs.1, ⟨q8, hs.2.1⟩, ?_⟩
          rintro a ha b (rfl | hb)
          · exact q7 a ha
          · exact hs.2.2 a ha b hb
        · refine T.inord_idxs.symm.trans ?_
          rw [r4]
          have h5 := (ITree.node i hh d l r).inord_idxs.trans h.perm
          rw [q6] at h5
          simp only [List.map_append, List.map_cons]
          refine List.perm_middle.trans ?_
          have hlen3 : A3.tree.length = A.tree.length + 1 := by omega
          rw [hlen3, List.range_succ]
          refine List.Perm.trans (.cons _ (by simpa using h5)) ?_
          exact (List.perm_append_singleton _ _).symm
      refine ⟨A3, T, ?_, hwf, ?_, by simp⟩
      · simp [Avl.insert, hroot, e, hstep]
      · refine hwf.data_eq _ (by simp; omega) ?_
        intro j dd hm
        rw [r4] at hm
        have hm' : (j, dd) ∈ (ITree.node i hh d l r).inord ∨ (j, dd) = (A.tree.length, x) := by
          rw [q6]; simp only [List.mem_append, List.mem_cons] at hm ⊢; grind
        rcases hm' with hm' | hm'
        · have := h.mem_inord.1 hm'
          rw [List.getElem?_append_left (getElem?_lt this), this]
        · cases hm'
          rw [List.getElem?_append_right (by simp)]; simp

end Xdvdfs
