import Verif.Proof.Avl

/-! # The four rotations, as transformations of the focused subtree -/

namespace Xdvdfs

open ITree

theorem Avl.get_of {A : Avl α} {i : Nat} {n : AvlNode α} (h : A.tree[i]? = some n) :
    A.get i = .ok n := by simp [Avl.get, h]

/-- `updateHeight` on a node whose recorded height is already exact, as part of a larger heap. -/
theorem Avl.updateHeight_same {A : Avl α} {i : Nat} {h : Int} {d : α} {p : Option Nat}
    {l r : ITree α} (hr : Rep A.tree p (.node i h d l r)) (hex : h = 1 + max l.sh r.sh) :
    ∃ A', A.updateHeight i = .ok A' ∧ (∀ j : Nat, A'.tree[j]? = A.tree[j]?) ∧ A'.root = A.root ∧
      A'.tree.length = A.tree.length := by
  obtain ⟨h1, h2, h3⟩ := hr
  obtain ⟨A', e, a1, b1, c1, d1⟩ :=
    Avl.modify_spec (fun n => { n with height := 1 + max l.sh r.sh }) h1
  refine ⟨A', ?_, ?_, c1, d1⟩
  · simp [Avl.updateHeight, Avl.get, h1, h2.sh_eq, h3.sh_eq, e]
  · intro j
    by_cases hj : j = i
    · subst hj; rw [a1, h1, hex]
    · exact b1 j hj

theorem Avl.rRotate_spec {A : Avl α} {a b c : Nat} {ha hb : Int} {da db : α} {tc br ar : ITree α}
    {fs : List (Frame α)} (hz : Zip A (.node a ha da (.node b hb db tc br) ar) fs)
    (htc : tc.ptr = some c) (hbal : tc.Bal) :
    ∃ A', A.rRotate a b c = .ok A' ∧ A'.tree.length = A.tree.length ∧
      Zip A' (.node b (1 + max tc.sh (1 + max br.sh ar.sh)) db tc
        (.node a (1 + max br.sh ar.sh) da br ar)) fs := by
  obtain ⟨⟨ga, ⟨gb, rtc, rbr⟩, rar⟩, hctx, hroot, hnd⟩ := hz
  have hnd0 := hnd
  simp only [ITree.idxs, List.cons_append, List.append_assoc, List.nodup_cons, List.nodup_append,
    List.mem_append, List.mem_cons, not_or] at hnd
  obtain ⟨hnda, hndb, hndtc, hndr⟩ := hnd
  have hcmem := ITree.ptr_mem htc
  -- step 1
  obtain ⟨A1, e1, r1c, r1r, f1, l1⟩ := Avl.setParentRef_spec (b := b) ga rfl hctx (by grind) (by grind) hroot
  -- step 2
  have gb1 : A1.tree[b]? = _ := (f1 b (by grind)).trans gb
  obtain ⟨A2, e2, gb2, f2, r2, l2⟩ := Avl.modify_spec (fun n => { n with parent := ctxPtr fs }) gb1
  have ga2 : A2.tree[a]? = _ := (f2 a (by grind)).trans ((f1 a (by grind)).trans ga)
  have rbr2 : Rep A2.tree (some b) br := rbr.frame (by grind)
  -- step 3
  obtain ⟨A3, e3, ga3, rbr3, f3, r3, l3⟩ := Avl.setLeftChild_spec ga2 rbr2 (by grind) (by grind)
  have gb3 : A3.tree[b]? = _ := (f3 b (by grind) (by grind)).trans gb2
  have rar3 : Rep A3.tree (some a) ar := rar.frame (by grind)
  have rta : Rep A3.tree (ctxPtr fs) (.node a ha da br ar) := ⟨ga3, rbr3, rar3⟩
  have hndta : (ITree.node a ha da br ar).idxs.Nodup := by
    simp only [ITree.idxs, List.nodup_cons, List.nodup_append, List.mem_append]; grind
  have hnb : b ∉ (ITree.node a ha da br ar).idxs := by
    simp only [ITree.idxs, List.mem_cons, List.mem_append]; grind
  -- step 4
  obtain ⟨A4, e4, gb4, rta4, f4, r4, l4⟩ := Avl.setRightChild_spec gb3 rta hndta hnb
  -- step 5
  obtain ⟨A5, e5, rta5, f5, r5, l5⟩ := Avl.updateHeight_spec rta4 hndta
  -- step 6
  simp only [ITree.idxs, List.mem_cons, List.mem_append, not_or] at f4 hndta hnb
  have rtc5 : Rep A5.tree (some b) tc := rtc.frame (by grind)
  cases tc with
  | nil => simp [ITree.ptr] at htc
  | node c' hc dc cl cr =>
  simp only [ITree.ptr, Option.some.injEq] at htc; subst htc
  obtain ⟨A6, e6, f6, r6, l6⟩ := Avl.updateHeight_same rtc5 hbal.1
  -- step 7
  have gb6 : A6.tree[b]? = _ := (f6 b).trans ((f5 b (by grind)).trans gb4)
  have rtc6 : Rep A6.tree (some b) (.node c' hc dc cl cr) := rtc5.frame (by grind)
  have rta6 := rta5.frame (tr' := A6.tree) (by grind)
  have rtb6 : Rep A6.tree (ctxPtr fs) (.node b hb db (.node c' hc dc cl cr)
      (.node a (1 + max br.sh ar.sh) da br ar)) := ⟨gb6, rtc6, rta6⟩
  have hperm : List.Perm (ITree.node b hb db (.node c' hc dc cl cr)
      (.node a (1 + max br.sh ar.sh) da br ar)).idxs
      (ITree.node a ha da (.node b hb db (.node c' hc dc cl cr) br) ar).idxs := by
    simp only [ITree.idxs]
    rw [List.perm_iff_count]; intro x
    simp only [List.count_cons, List.count_append]; omega
  have hndb' := (hperm.append_right (ctxIdxs fs)).nodup_iff.2 hnd0
  obtain ⟨A7, e7, rtb7, f7, r7, l7⟩ := Avl.updateHeight_spec rtb6 (List.nodup_append.1 hndb').1
  refine ⟨A7, ?_, by omega, rtb7, ?_, ?_, ?_⟩
  · have e4' : A3.setRightChild b (some a) = .ok A4 := e4
    simp [Avl.rRotate, Avl.get_of ga, Avl.get_of gb, e1, e2,
      Avl.get_of gb2, e3, e4', e5, e6, e7]
  · refine r1c.frame ?_
    intro j hj
    rw [f7 j (by grind), f6, f5 j (by grind), f4 j (by grind) (by grind), f3 j (by grind) (by grind),
      f2 j (by grind)]
  · simp only [ITree.ptr] at *; rw [r7, r6, r5, r4, r3, r2, r1r]
  · simpa [ITree.idxs] using hndb'

theorem Avl.lRotate_spec {A : Avl α} {a b c : Nat} {ha hb : Int} {da db : α} {tc br ar : ITree α}
    {fs : List (Frame α)} (hz : Zip A (.node a ha da ar (.node b hb db br tc)) fs)
    (htc : tc.ptr = some c) (hbal : tc.Bal) :
    ∃ A', A.lRotate a b c = .ok A' ∧ A'.tree.length = A.tree.length ∧
      Zip A' (.node b (1 + max (1 + max ar.sh br.sh) tc.sh) db
        (.node a (1 + max ar.sh br.sh) da ar br) tc) fs := by
  obtain ⟨⟨ga, rar, ⟨gb, rbr, rtc⟩⟩, hctx, hroot, hnd⟩ := hz
  have hnd0 := hnd
  simp only [ITree.idxs, List.cons_append, List.append_assoc, List.nodup_cons, List.nodup_append,
    List.mem_append, List.mem_cons, not_or] at hnd
  have hcmem := ITree.ptr_mem htc
  -- step 1
  obtain ⟨A1, e1, r1c, r1r, f1, l1⟩ := Avl.setParentRef_spec (b := b) ga rfl hctx (by grind) (by grind) hroot
  -- step 2
  have gb1 : A1.tree[b]? = _ := (f1 b (by grind)).trans gb
  obtain ⟨A2, e2, gb2, f2, r2, l2⟩ := Avl.modify_spec (fun n => { n with parent := ctxPtr fs }) gb1
  have ga2 : A2.tree[a]? = _ := (f2 a (by grind)).trans ((f1 a (by grind)).trans ga)
  have rbr2 : Rep A2.tree (some b) br := rbr.frame (by grind)
  -- step 3
  obtain ⟨A3, e3, ga3, rbr3, f3, r3, l3⟩ := Avl.setRightChild_spec ga2 rbr2 (by grind) (by grind)
  have gb3 : A3.tree[b]? = _ := (f3 b (by grind) (by grind)).trans gb2
  have rar3 : Rep A3.tree (some a) ar := rar.frame (by grind)
  have rta : Rep A3.tree (ctxPtr fs) (.node a ha da ar br) := ⟨ga3, rar3, rbr3⟩
  have hndta : (ITree.node a ha da ar br).idxs.Nodup := by
    simp only [ITree.idxs, List.nodup_cons, List.nodup_append, List.mem_append]; grind
  have hnb : b ∉ (ITree.node a ha da ar br).idxs := by
    simp only [ITree.idxs, List.mem_cons, List.mem_append]; grind
  -- step 4
  obtain ⟨A4, e4, gb4, rta4, f4, r4, l4⟩ := Avl.setLeftChild_spec gb3 rta hndta hnb
  -- step 5
  obtain ⟨A5, e5, rta5, f5, r5, l5⟩ := Avl.updateHeight_spec rta4 hndta
  -- step 6
  simp only [ITree.idxs, List.mem_cons, List.mem_append, not_or] at f4 hndta hnb
  have rtc5 : Rep A5.tree (some b) tc := rtc.frame (by grind)
  cases tc with
  | nil => simp [ITree.ptr] at htc
  | node c' hc dc cl cr =>
  simp only [ITree.ptr, Option.some.injEq] at htc; subst htc
  obtain ⟨A6, e6, f6, r6, l6⟩ := Avl.updateHeight_same rtc5 hbal.1
  -- step 7
  have gb6 : A6.tree[b]? = _ := (f6 b).trans ((f5 b (by grind)).trans gb4)
  have rtc6 : Rep A6.tree (some b) (.node c' hc dc cl cr) := rtc5.frame (by grind)
  have rta6 := rta5.frame (tr' := A6.tree) (by grind)
  have rtb6 : Rep A6.tree (ctxPtr fs) (.node b hb db 
      (.node a (1 + max ar.sh br.sh) da ar br) (.node c' hc dc cl cr)) := ⟨gb6, rta6, rtc6⟩
  have hperm : List.Perm (ITree.node b hb db
      (.node a (1 + max ar.sh br.sh) da ar br) (.node c' hc dc cl cr)).idxs
      (ITree.node a ha da ar (.node b hb db br (.node c' hc dc cl cr))).idxs := by
    simp only [ITree.idxs]
    rw [List.perm_iff_count]; intro x
    simp only [List.count_cons, List.count_append]; omega
  have hndb' := (hperm.append_right (ctxIdxs fs)).nodup_iff.2 hnd0
  obtain ⟨A7, e7, rtb7, f7, r7, l7⟩ := Avl.updateHeight_spec rtb6 (List.nodup_append.1 hndb').1
  refine ⟨A7, ?_, by omega, rtb7, ?_, ?_, ?_⟩
  · have e4' : A3.setLeftChild b (some a) = .ok A4 := e4
    simp [Avl.lRotate, Avl.get_of ga, Avl.get_of gb, e1, e2,
      Avl.get_of gb2, e3, e4', e5, e6, e7]
  · refine r1c.frame ?_
    intro j hj
    rw [f7 j (by grind), f6, f5 j (by grind), f4 j (by grind) (by grind), f3 j (by grind) (by grind),
      f2 j (by grind)]
  · simp only [ITree.ptr] at *; rw [r7, r6, r5, r4, r3, r2, r1r]
  · simpa [ITree.idxs] using hndb'

theorem Avl.lrRotate_spec {A : Avl α} {a b c : Nat} {ha hb hc : Int} {da db dc : α}
    {bl cl cr ar : ITree α} {fs : List (Frame α)}
    (hz : Zip A (.node a ha da (.node b hb db bl (.node c hc dc cl cr)) ar) fs) :
    ∃ A', A.lrRotate a b c = .ok A' ∧ A'.tree.length = A.tree.length ∧
      Zip A' (.node c (1 + max (1 + max bl.sh cl.sh) (1 + max cr.sh ar.sh)) dc
        (.node b (1 + max bl.sh cl.sh) db bl cl)
        (.node a (1 + max cr.sh ar.sh) da cr ar)) fs := by
  obtain ⟨⟨ga, ⟨gb, rbl, ⟨gc, rcl, rcr⟩⟩, rar⟩, hctx, hroot, hnd⟩ := hz
  have hnd0 := hnd
  simp only [ITree.idxs, List.cons_append, List.append_assoc, List.nodup_cons, List.nodup_append,
    List.mem_append, List.mem_cons, not_or] at hnd
  obtain ⟨A1, e1, r1c, r1r, f1, l1⟩ := Avl.setParentRef_spec (b := c) ga rfl hctx (by grind) (by grind) hroot
  have gc1 : A1.tree[c]? = _ := (f1 c (by grind)).trans gc
  obtain ⟨A2, e2, gc2, f2, r2, l2⟩ := Avl.modify_spec (fun n => { n with parent := ctxPtr fs }) gc1
  have gb2 : A2.tree[b]? = _ := (f2 b (by grind)).trans ((f1 b (by grind)).trans gb)
  have rcl2 : Rep A2.tree (some c) cl := rcl.frame (by grind)
  obtain ⟨A3, e3, gb3, rcl3, f3, r3, l3⟩ := Avl.setRightChild_spec gb2 rcl2 (by grind) (by grind)
  have gc3 : A3.tree[c]? = _ := (f3 c (by grind) (by grind)).trans gc2
  have ga3 : A3.tree[a]? = _ := (f3 a (by grind) (by grind)).trans
    ((f2 a (by grind)).trans ((f1 a (by grind)).trans ga))
  have rcr3 : Rep A3.tree (some c) cr := rcr.frame (by grind)
  obtain ⟨A4, e4, ga4, rcr4, f4, r4, l4⟩ := Avl.setLeftChild_spec ga3 rcr3 (by grind) (by grind)
  have gc4 : A4.tree[c]? = _ := (f4 c (by grind) (by grind)).trans gc3
  have gb4 : A4.tree[b]? = _ := (f4 b (by grind) (by grind)).trans gb3
  have rcl4 : Rep A4.tree (some b) cl := rcl3.frame (by grind)
  have rar4 : Rep A4.tree (some a) ar := rar.frame (by grind)
  have rbl4 : Rep A4.tree (some b) bl := rbl.frame (by grind)
  have rta4 : Rep A4.tree (ctxPtr fs) (.node a ha da cr ar) := ⟨ga4, rcr4, rar4⟩
  have rtb4 : Rep A4.tree (some a) (.node b hb db bl cl) := ⟨gb4, rbl4, rcl4⟩
  have nda : (ITree.node a ha da cr ar).idxs.Nodup := by
    simp only [ITree.idxs, List.nodup_cons, List.nodup_append, List.mem_append]; grind
  have ndb : (ITree.node b hb db bl cl).idxs.Nodup := by
    simp only [ITree.idxs, List.nodup_cons, List.nodup_append, List.mem_append]; grind
  have hca : c ∉ (ITree.node a ha da cr ar).idxs := by
    simp only [ITree.idxs, List.mem_cons, List.mem_append]; grind
  have hcb : c ∉ (ITree.node b hb db bl cl).idxs := by
    simp only [ITree.idxs, List.mem_cons, List.mem_append]; grind
  have hab : ∀ j ∈ (ITree.node a ha da cr ar).idxs, j ∉ (ITree.node b hb db bl cl).idxs := by
    simp only [ITree.idxs, List.mem_cons, List.mem_append]; grind
  obtain ⟨A5, e5, gc5, rta5, f5, r5, l5⟩ := Avl.setRightChild_spec gc4 rta4 nda hca
  have rtb5 := rtb4.frame (tr' := A5.tree) (fun j hj => f5 j (by grind) (by grind))
  obtain ⟨A6, e6, gc6, rtb6, f6, r6, l6⟩ := Avl.setLeftChild_spec gc5 rtb5 ndb hcb
  have rta6 := rta5.frame (tr' := A6.tree) (fun j hj => f6 j (by grind) (by grind))
  obtain ⟨A7, e7, rta7, f7, r7, l7⟩ := Avl.updateHeight_spec rta6 nda
  have ham : a ∈ (ITree.node a ha da cr ar).idxs := by simp [ITree.idxs]
  have hbm : b ∈ (ITree.node b hb db bl cl).idxs := by simp [ITree.idxs]
  have rtb7 := rtb6.frame (tr' := A7.tree) (fun j hj => f7 j (by grind))
  obtain ⟨A8, e8, rtb8, f8, r8, l8⟩ := Avl.updateHeight_spec rtb7 ndb
  have rta8 := rta7.frame (tr' := A8.tree) (fun j hj => f8 j (by grind [ITree.idxs]))
  have gc8 : A8.tree[c]? = _ := (f8 c (by grind)).trans ((f7 c (by grind)).trans gc6)
  have rtc8 : Rep A8.tree (ctxPtr fs) (.node c hc dc (.node b (1 + max bl.sh cl.sh) db bl cl)
        (.node a (1 + max cr.sh ar.sh) da cr ar)) := ⟨gc8, rtb8, rta8⟩
  have hperm : List.Perm (ITree.node c hc dc (.node b (1 + max bl.sh cl.sh) db bl cl)
        (.node a (1 + max cr.sh ar.sh) da cr ar)).idxs
      (ITree.node a ha da (.node b hb db bl (.node c hc dc cl cr)) ar).idxs := by
    simp only [ITree.idxs]
    rw [List.perm_iff_count]; intro x
    simp only [List.count_cons, List.count_append]; omega
  have hndb' := (hperm.append_right (ctxIdxs fs)).nodup_iff.2 hnd0
  obtain ⟨A9, e9, rtc9, f9, r9, l9⟩ := Avl.updateHeight_spec rtc8 (List.nodup_append.1 hndb').1
  refine ⟨A9, ?_, by omega, rtc9, ?_, ?_, ?_⟩
  · have e5' : A4.setRightChild c (some a) = .ok A5 := e5
    have e6' : A5.setLeftChild c (some b) = .ok A6 := e6
    simp [Avl.lrRotate, Avl.get_of ga, Avl.get_of gb, e1, e2,
      Avl.get_of gc2, e3, Avl.get_of gc3, e4, e5', e6', e7, e8, e9]
  · refine r1c.frame ?_
    intro j hj
    simp only [ITree.idxs, List.mem_cons, List.mem_append, not_or] at f5 f6
    rw [f9 j (by grind), f8 j (by grind), f7 j (by grind), f6 j (by grind) (by grind),
      f5 j (by grind) (by grind), f4 j (by grind) (by grind), f3 j (by grind) (by grind),
      f2 j (by grind)]
  · rw [r9, r8, r7, r6, r5, r4, r3, r2, r1r]; rfl
  · simpa [ITree.idxs] using hndb'

theorem Avl.rlRotate_spec {A : Avl α} {a b c : Nat} {ha hb hc : Int} {da db dc : α}
    {br cl cr al : ITree α} {fs : List (Frame α)}
    (hz : Zip A (.node a ha da al (.node b hb db (.node c hc dc cl cr) br)) fs) :
    ∃ A', A.rlRotate a b c = .ok A' ∧ A'.tree.length = A.tree.length ∧
      Zip A' (.node c (1 + max (1 + max al.sh cl.sh) (1 + max cr.sh br.sh)) dc
        (.node a (1 + max al.sh cl.sh) da al cl)
        (.node b (1 + max cr.sh br.sh) db cr br)) fs := by
  obtain ⟨⟨ga, ral, ⟨gb, ⟨gc, rcl, rcr⟩, rbr⟩⟩, hctx, hroot, hnd⟩ := hz
  have hnd0 := hnd
  simp only [ITree.idxs, List.cons_append, List.append_assoc, List.nodup_cons, List.nodup_append,
    List.mem_append, List.mem_cons, not_or] at hnd
  obtain ⟨A1, e1, r1c, r1r, f1, l1⟩ := Avl.setParentRef_spec (b := c) ga rfl hctx (by grind) (by grind) hroot
  have gc1 : A1.tree[c]? = _ := (f1 c (by grind)).trans gc
  obtain ⟨A2, e2, gc2, f2, r2, l2⟩ := Avl.modify_spec (fun n => { n with parent := ctxPtr fs }) gc1
  have ga2 : A2.tree[a]? = _ := (f2 a (by grind)).trans ((f1 a (by grind)).trans ga)
  have rcl2 : Rep A2.tree (some c) cl := rcl.frame (by grind)
  obtain ⟨A3, e3, ga3, rcl3, f3, r3, l3⟩ := Avl.setRightChild_spec ga2 rcl2 (by grind) (by grind)
  have gc3 : A3.tree[c]? = _ := (f3 c (by grind) (by grind)).trans gc2
  have gb3 : A3.tree[b]? = _ := (f3 b (by grind) (by grind)).trans
    ((f2 b (by grind)).trans ((f1 b (by grind)).trans gb))
  have rcr3 : Rep A3.tree (some c) cr := rcr.frame (by grind)
  obtain ⟨A4, e4, gb4, rcr4, f4, r4, l4⟩ := Avl.setLeftChild_spec gb3 rcr3 (by grind) (by grind)
  have gc4 : A4.tree[c]? = _ := (f4 c (by grind) (by grind)).trans gc3
  have ga4 : A4.tree[a]? = _ := (f4 a (by grind) (by grind)).trans ga3
  have rcl4 : Rep A4.tree (some a) cl := rcl3.frame (by grind)
  have ral4 : Rep A4.tree (some a) al := ral.frame (by grind)
  have rbr4 : Rep A4.tree (some b) br := rbr.frame (by grind)
  have rta4 : Rep A4.tree (ctxPtr fs) (.node a ha da al cl) := ⟨ga4, ral4, rcl4⟩
  have rtb4 : Rep A4.tree (some a) (.node b hb db cr br) := ⟨gb4, rcr4, rbr4⟩
  have nda : (ITree.node a ha da al cl).idxs.Nodup := by
    simp only [ITree.idxs, List.nodup_cons, List.nodup_append, List.mem_append]; grind
  have ndb : (ITree.node b hb db cr br).idxs.Nodup := by
    simp only [ITree.idxs, List.nodup_cons, List.nodup_append, List.mem_append]; grind
  have hca : c ∉ (ITree.node a ha da al cl).idxs := by
    simp only [ITree.idxs, List.mem_cons, List.mem_append]; grind
  have hcb : c ∉ (ITree.node b hb db cr br).idxs := by
    simp only [ITree.idxs, List.mem_cons, List.mem_append]; grind
  have hab : ∀ j ∈ (ITree.node a ha da al cl).idxs, j ∉ (ITree.node b hb db cr br).idxs := by
    simp only [ITree.idxs, List.mem_cons, List.mem_append]; grind
  obtain ⟨A5, e5, gc5, rtb5, f5, r5, l5⟩ := Avl.setRightChild_spec gc4 rtb4 ndb hcb
  have rta5 := rta4.frame (tr' := A5.tree) (fun j hj => f5 j (by grind) (by grind))
  obtain ⟨A6, e6, gc6, rta6, f6, r6, l6⟩ := Avl.setLeftChild_spec gc5 rta5 nda hca
  have rtb6 := rtb5.frame (tr' := A6.tree) (fun j hj => f6 j (by grind) (by grind))
  obtain ⟨A7, e7, rta7, f7, r7, l7⟩ := Avl.updateHeight_spec rta6 nda
  have ham : a ∈ (ITree.node a ha da al cl).idxs := by simp [ITree.idxs]
  have hbm : b ∈ (ITree.node b hb db cr br).idxs := by simp [ITree.idxs]
  have rtb7 := rtb6.frame (tr' := A7.tree) (fun j hj => f7 j (by grind))
  obtain ⟨A8, e8, rtb8, f8, r8, l8⟩ := Avl.updateHeight_spec rtb7 ndb
  have rta8 := rta7.frame (tr' := A8.tree) (fun j hj => f8 j (by grind [ITree.idxs]))
  have gc8 : A8.tree[c]? = _ := (f8 c (by grind)).trans ((f7 c (by grind)).trans gc6)
  have rtc8 : Rep A8.tree (ctxPtr fs) (.node c hc dc (.node a (1 + max al.sh cl.sh) da al cl)
        (.node b (1 + max cr.sh br.sh) db cr br)) := ⟨gc8, rta8, rtb8⟩
  have hperm : List.Perm (ITree.node c hc dc (.node a (1 + max al.sh cl.sh) da al cl)
        (.node b (1 + max cr.sh br.sh) db cr br)).idxs
      (ITree.node a ha da al (.node b hb db (.node c hc dc cl cr) br)).idxs := by
    simp only [ITree.idxs]
    rw [List.perm_iff_count]; intro x
    simp only [List.count_cons, List.count_append]; omega
  have hndb' := (hperm.append_right (ctxIdxs fs)).nodup_iff.2 hnd0
  obtain ⟨A9, e9, rtc9, f9, r9, l9⟩ := Avl.updateHeight_spec rtc8 (List.nodup_append.1 hndb').1
  refine ⟨A9, ?_, by omega, rtc9, ?_, ?_, ?_⟩
  · have e5' : A4.setRightChild c (some b) = .ok A5 := e5
    have e6' : A5.setLeftChild c (some a) = .ok A6 := e6
    simp [Avl.rlRotate, Avl.get_of ga, Avl.get_of gb, e1, e2,
      Avl.get_of gc2, e3, Avl.get_of gc3, e4, e5', e6', e7, e8, e9]
  · refine r1c.frame ?_
    intro j hj
    simp only [ITree.idxs, List.mem_cons, List.mem_append, not_or] at f5 f6
    rw [f9 j (by grind), f8 j (by grind), f7 j (by grind), f6 j (by grind) (by grind),
      f5 j (by grind) (by grind), f4 j (by grind) (by grind), f3 j (by grind) (by grind),
      f2 j (by grind)]
  · rw [r9, r8, r7, r6, r5, r4, r3, r2, r1r]; rfl
  · simpa [ITree.idxs] using hndb'

end Xdvdfs
