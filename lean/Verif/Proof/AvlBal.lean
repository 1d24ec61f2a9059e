import Verif.Proof.AvlRot

/-! # Rebalancing after an insertion -/

namespace Xdvdfs

open ITree

/-- The context was balanced and exact when the hole had height `H`. -/
def CtxOK : Int → List (Frame α) → Prop
  | _, [] => True
  | H, f :: fs => H ≤ f.sib.sh + 1 ∧ f.sib.sh ≤ H + 1 ∧ f.h = 1 + max H f.sib.sh ∧ f.sib.Bal ∧
      CtxOK f.h fs

/-- `dir` points at the strictly taller child. -/
def Grew (dir : Dir) : ITree α → Prop
  | nil => False
  | node _ h _ l r =>
    match dir with
    | .left => l.sh = r.sh + 1
    | .right => r.sh = l.sh + 1
    | .leaf => h = 1

def ctxNext : List (Frame α) → Option (Nat × Dir)
  | [] => none
  | f :: _ => some (f.i, f.dir)

def ctxPre : List (Frame α) → List (Nat × α)
  | [] => []
  | f :: fs => match f.dir with
    | .left => ctxPre fs
    | _ => ctxPre fs ++ (f.sib.inord ++ [(f.i, f.d)])

def ctxPost : List (Frame α) → List (Nat × α)
  | [] => []
  | f :: fs => match f.dir with
    | .left => (f.i, f.d) :: f.sib.inord ++ ctxPost fs
    | _ => ctxPost fs

theorem plug_inord (t : ITree α) (fs : List (Frame α)) :
    (plug t fs).inord = ctxPre fs ++ t.inord ++ ctxPost fs := by
  induction fs generalizing t with
  | nil => simp [plug, ctxPre, ctxPost]
  | cons f fs ih =>
    simp only [plug, ih, ctxPre, ctxPost, Frame.fill]
    cases f.dir <;> simp [ITree.inord]

theorem plug_inord_congr {t t' : ITree α} (h : t.inord = t'.inord) (fs : List (Frame α)) :
    (plug t fs).inord = (plug t' fs).inord := by
  rw [plug_inord, plug_inord, h]

theorem Zip.next {A : Avl α} {t : ITree α} {fs : List (Frame α)} {k : Nat} (hz : Zip A t fs)
    (hk : t.ptr = some k) : A.parentDirection k = .ok (ctxNext fs) := by
  obtain ⟨h1, h2, h3, h4⟩ := hz
  cases t with
  | nil => simp at hk
  | node i h d l r =>
    simp at hk; subst hk
    have := Avl.parentDirection_spec h1.1 rfl h2 (by
      intro hm; exact (List.nodup_append.1 h4).2.2 i (by simp [ITree.idxs]) i hm rfl)
    rw [this]; cases fs <;> rfl

/-- Updating the height of the focused node. -/
theorem Zip.updateHeight {A : Avl α} {i : Nat} {h : Int} {d : α} {l r : ITree α}
    {fs : List (Frame α)} (hz : Zip A (.node i h d l r) fs) :
    ∃ A', A.updateHeight i = .ok A' ∧ Zip A' (.node i (1 + max l.sh r.sh) d l r) fs ∧
      A'.tree.length = A.tree.length := by
  obtain ⟨h1, h2, h3, h4⟩ := hz
  obtain ⟨A', e, a1, b1, c1, d1⟩ := Avl.updateHeight_spec h1 (List.nodup_append.1 h4).1
  refine ⟨A', e, ⟨a1, h2.frame ?_, by rw [c1, h3]; rfl, h4⟩, d1⟩
  intro j hj
  refine b1 j ?_
  rintro rfl
  exact (List.nodup_append.1 h4).2.2 j (by simp [ITree.idxs]) j hj rfl

/-- What the loop delivers. -/
def RebalOk (A : Avl α) (t : ITree α) (fs : List (Frame α)) (r : Res (Avl α)) : Prop :=
  ∃ A' T, r = .ok A' ∧ Zip A' T [] ∧ T.Bal ∧ T.inord = (plug t fs).inord ∧
    A'.tree.length = A.tree.length

theorem rebalance_stable (fs : List (Frame α)) : ∀ (A : Avl α) (t : ITree α) (k fuel : Nat)
    (prev : Option (Nat × Dir)), Zip A t fs → t.ptr = some k → t.Bal → CtxOK t.sh fs →
    fs.length ≤ fuel → RebalOk A t fs (Avl.rebalanceLoop fuel A (ctxNext fs) prev) := by
  induction fs with
  | nil =>
    intro A t k fuel prev hz hk hb _ _
    exact ⟨A, t, by unfold Avl.rebalanceLoop; simp [ctxNext], hz, hb, rfl, rfl⟩
  | cons f fs ih =>
    intro A t k fuel prev hz hk hb hok hfuel
    obtain ⟨c1, c2, c3, c4, c5⟩ := hok
    have hd := hz.ctx.1
    have hz' := (Zip.up_iff hd).1 hz
    obtain ⟨fuel, rfl⟩ : ∃ n, fuel = n + 1 := ⟨fuel - 1, by simp at hfuel; omega⟩
    have hptr := fill_ptr f t
    have main : ∀ l r, f.fill t = .node f.i f.h f.d l r → f.h = 1 + max l.sh r.sh →
        l.sh ≤ r.sh + 1 → r.sh ≤ l.sh + 1 → l.Bal → r.Bal →
        RebalOk A t (f :: fs) (Avl.rebalanceLoop (fuel + 1) A (ctxNext (f :: fs)) prev) := by
      intro l r hfill hh hlr hrl hlb hrb
      rw [hfill] at hz'
      obtain ⟨A1, e1, z1, l1⟩ := hz'.updateHeight
      rw [← hh] at z1
      have hbf := Avl.balanceFactor_spec z1.rep
      have hnext := z1.next rfl
      have hstep : Avl.rebalanceLoop (fuel + 1) A (ctxNext (f :: fs)) prev =
          Avl.rebalanceLoop fuel A1 (ctxNext fs) (some (f.i, f.dir)) := by
        have : ¬(l.sh - r.sh < -1 ∨ 1 < l.sh - r.sh) := by omega
        simp [ctxNext, Avl.rebalanceLoop, e1, hbf, this, hnext]
      rw [hstep]
      have hbal : (ITree.node f.i f.h f.d l r).Bal := ⟨hh, hlr, hrl, hlb, hrb⟩
      obtain ⟨A', T, r1, r2, r3, r4, r5⟩ := ih A1 _ f.i fuel (some (f.i, f.dir)) z1 rfl hbal
        (by simpa using c5) (by simp at hfuel; omega)
      refine ⟨A', T, r1, r2, r3, ?_, by omega⟩
      rw [r4, plug, hfill]
    rcases hd with hd | hd
    · exact main t f.sib (by simp [Frame.fill, hd]) c3 c1 c2 hb c4
    · exact main f.sib t (by simp [Frame.fill, hd]) (by omega) c2 c1 c4 hb

/-- After a rotation, the loop continues at the parent of the old top `a`, which is the new top of
the rotated subtree; nothing changes any more. -/
theorem rebalance_after_rot {fs : List (Frame α)} {A : Avl α} {f : Frame α} {ta : ITree α} {a fuel : Nat}
    {prev : Option (Nat × Dir)} (hd : f.dir = .left ∨ f.dir = .right)
    (hz : Zip A (f.fill ta) fs) (hta : ta.ptr = some a) (hb : ta.Bal)
    (h1 : ta.sh ≤ f.sib.sh + 1) (h2 : f.sib.sh ≤ ta.sh + 1) (h3 : f.h = 1 + max ta.sh f.sib.sh)
    (h4 : f.sib.Bal) (h5 : CtxOK f.h fs) (hfuel : fs.length + 1 ≤ fuel) :
    A.parentDirection a = .ok (some (f.i, f.dir)) ∧
      RebalOk A (f.fill ta) fs (Avl.rebalanceLoop fuel A (some (f.i, f.dir)) prev) := by
  have hz' := (Zip.up_iff hd).2 hz
  refine ⟨hz'.next hta, ?_⟩
  exact rebalance_stable (f :: fs) A ta a fuel prev hz' hta hb ⟨h1, h2, h3, h4, h5⟩ (by simpa using hfuel)

theorem rebalance_grown (fs : List (Frame α)) : ∀ (A : Avl α) (t : ITree α) (k fuel : Nat)
    (dir : Dir), Zip A t fs → t.ptr = some k → t.Bal → Grew dir t → CtxOK (t.sh - 1) fs →
    fs.length + 1 ≤ fuel →
    RebalOk A t fs (Avl.rebalanceLoop fuel A (ctxNext fs) (some (k, dir))) := by
  induction fs with
  | nil =>
    intro A t k fuel prev hz hk hb _ _ _
    exact ⟨A, t, by unfold Avl.rebalanceLoop; simp [ctxNext], hz, hb, rfl, rfl⟩
  | cons f fs ih =>
    intro A t k fuel dir hz hk hb hg hok hfuel
    obtain ⟨c1, c2, c3, c4, c5⟩ := hok
    have hd := hz.ctx.1
    have hz' := (Zip.up_iff hd).1 hz
    obtain ⟨fuel, rfl⟩ : ∃ n, fuel = n + 1 := ⟨fuel - 1, by simp at hfuel; omega⟩
    have hsn := c4.sh_nonneg
    have htn := hb.sh_nonneg
    simp only [List.length_cons] at hfuel
    -- the balanced continuation
    have main : ∀ l r, f.fill t = .node f.i f.h f.d l r → 
        l.sh ≤ r.sh + 1 → r.sh ≤ l.sh + 1 → l.Bal → r.Bal →
        (1 + max l.sh r.sh = f.h ∨ (1 + max l.sh r.sh = f.h + 1 ∧
          Grew f.dir (ITree.node f.i (1 + max l.sh r.sh) f.d l r))) →
        RebalOk A t (f :: fs) (Avl.rebalanceLoop (fuel + 1) A (ctxNext (f :: fs)) (some (k, dir))) := by
      intro l r hfill hlr hrl hlb hrb hcase
      rw [hfill] at hz'
      obtain ⟨A1, e1, z1, l1⟩ := hz'.updateHeight
      have hbf := Avl.balanceFactor_spec z1.rep
      have hnext := z1.next rfl
      have hstep : Avl.rebalanceLoop (fuel + 1) A (ctxNext (f :: fs)) (some (k, dir)) =
          Avl.rebalanceLoop fuel A1 (ctxNext fs) (some (f.i, f.dir)) := by
        have : ¬(l.sh - r.sh < -1 ∨ 1 < l.sh - r.sh) := by omega
        simp [ctxNext, Avl.rebalanceLoop, e1, hbf, this, hnext]
      rw [hstep]
      have hbal : (ITree.node f.i (1 + max l.sh r.sh) f.d l r).Bal := ⟨rfl, hlr, hrl, hlb, hrb⟩
      have hin : (plug (ITree.node f.i (1 + max l.sh r.sh) f.d l r) fs).inord
          = (plug (f.fill t) fs).inord := by
        apply plug_inord_congr; rw [hfill]; rfl
      rcases hcase with hcase | ⟨hcase, hg'⟩
      · obtain ⟨A', T, r1, r2, r3, r4, r5⟩ := rebalance_stable fs A1 _ f.i fuel (some (f.i, f.dir)) z1
          rfl hbal (by simpa [hcase] using c5) (by omega)
        exact ⟨A', T, r1, r2, r3, by rw [r4, hin, plug], by omega⟩
      · obtain ⟨A', T, r1, r2, r3, r4, r5⟩ := ih A1 _ f.i fuel f.dir z1
          rfl hbal hg' (by simpa [hcase] using c5) (by omega)
        exact ⟨A', T, r1, r2, r3, by rw [r4, hin, plug], by omega⟩
    -- the rotating continuation
    have rot : ∀ l r, f.fill t = .node f.i f.h f.d l r → (l.sh - r.sh < -1 ∨ 1 < l.sh - r.sh) →
        (∀ A1, Zip A1 (.node f.i (1 + max l.sh r.sh) f.d l r) fs →
          ∃ (c : Nat) (A2 : Avl α) (f' : Frame α) (ta : ITree α), (do
              let nb ← A1.get k
              Res.unwrap (nb.child dir)) = .ok c ∧
            A1.performRotation f.i k c f.dir dir = .ok A2 ∧
            A2.tree.length = A1.tree.length ∧
            (f'.dir = .left ∨ f'.dir = .right) ∧ Zip A2 (f'.fill ta) fs ∧ ta.ptr = some f.i ∧
            ta.Bal ∧ ta.sh ≤ f'.sib.sh + 1 ∧ f'.sib.sh ≤ ta.sh + 1 ∧
            f'.h = 1 + max ta.sh f'.sib.sh ∧ f'.sib.Bal ∧ f'.h = f.h ∧
            (f'.fill ta).inord = (f.fill t).inord) →
        RebalOk A t (f :: fs) (Avl.rebalanceLoop (fuel + 1) A (ctxNext (f :: fs)) (some (k, dir))) := by
      intro l r hfill hun hrot
      have hz'' := hz'
      rw [hfill] at hz''
      obtain ⟨A1, e1, z1, l1⟩ := hz''.updateHeight
      have hbf := Avl.balanceFactor_spec z1.rep
      obtain ⟨c, A2, f', ta, p1, p2, p3, p4, p5, p6, p7, p8, p9, p10, p11, p12, p13⟩ := hrot A1 z1
      obtain ⟨q1, A', T, r1, r2, r3, r4, r5⟩ := rebalance_after_rot (fuel := fuel)
        (prev := some (f.i, f.dir)) p4 p5 p6 p7 p8 p9 p10 p11 (by rw [p12]; exact c5) (by omega)
      have hstep : Avl.rebalanceLoop (fuel + 1) A (ctxNext (f :: fs)) (some (k, dir)) =
          Avl.rebalanceLoop fuel A2 (some (f'.i, f'.dir)) (some (f.i, f.dir)) := by
        cases hgk : A1.get k with
        | ok nb =>
          simp only [hgk, Res.ok_bind] at p1
          simp [ctxNext, Avl.rebalanceLoop, e1, hbf, hun, hgk, p1, p2, q1]
        | err e => simp [hgk] at p1
        | panic => simp [hgk] at p1
        | hang => simp [hgk] at p1
      rw [hstep]
      refine ⟨A', T, r1, r2, r3, ?_, by omega⟩
      rw [r4, plug]
      exact plug_inord_congr p13 fs
    cases t with
    | nil => simp at hk
    | node b hb' db bl br =>
    simp only [ptr_node, Option.some.injEq] at hk; subst hk
    obtain ⟨b1, b2, b3, b4, b5⟩ := hb
    have nbl := b4.sh_nonneg
    have nbr := b5.sh_nonneg
    simp only [sh_node] at c1 c2 c3 htn
    rcases hd with hd | hd
    · by_cases hcmp : hb' ≤ f.sib.sh + 1
      · refine main (.node b hb' db bl br) f.sib (by simp [Frame.fill, hd]) (by simpa using hcmp) (by simp; omega)
          ⟨b1, b2, b3, b4, b5⟩ c4 ?_
        simp only [sh_node, Grew, hd]
        omega
      · refine rot (.node b hb' db bl br) f.sib (by simp [Frame.fill, hd]) (by simp; omega) ?_
        intro A1 z1
        cases dir with
        | leaf => simp only [Grew] at hg; omega
        | left =>
          simp only [Grew] at hg
          cases bl with
          | nil => simp at hg; omega
          | node c hc dc cl cr =>
          obtain ⟨A2, e2, l2, z2⟩ := Avl.rRotate_spec (c := c) z1 rfl b4
          simp only [sh_node] at *
          refine ⟨c, A2, ⟨.right, b, 1 + max hc (1 + max br.sh f.sib.sh), db, .node c hc dc cl cr⟩,
            .node f.i (1 + max br.sh f.sib.sh) f.d br f.sib, ?_, ?_, l2, .inr rfl, z2, rfl,
            ⟨rfl, by omega, by omega, b5, c4⟩, ?_, ?_, ?_, b4, ?_, ?_⟩
          · simp [Avl.get_of z1.rep.2.1.1, AvlNode.child]
          · simp [hd, Avl.performRotation, e2]
          · simp; omega
          · simp; omega
          · simp; omega
          · simp; omega
          · simp [Frame.fill, hd, ITree.inord]
        | right =>
          simp only [Grew] at hg
          cases br with
          | nil => simp at hg; omega
          | node c hc dc cl cr =>
          obtain ⟨A2, e2, l2, z2⟩ := Avl.lrRotate_spec (c := c) z1
          obtain ⟨d1, d2, d3, d4, d5⟩ := b5
          have := d4.sh_nonneg
          have := d5.sh_nonneg
          simp only [sh_node] at *
          refine ⟨c, A2, ⟨.right, c, 1 + max (1 + max bl.sh cl.sh) (1 + max cr.sh f.sib.sh), dc,
              .node b (1 + max bl.sh cl.sh) db bl cl⟩,
            .node f.i (1 + max cr.sh f.sib.sh) f.d cr f.sib, ?_, ?_, l2, .inr rfl, z2, rfl,
            ⟨rfl, by omega, by omega, d5, c4⟩, ?_, ?_, ?_,
            ⟨rfl, by omega, by omega, b4, d4⟩, ?_, ?_⟩
          · simp [Avl.get_of z1.rep.2.1.1, AvlNode.child]
          · simp [hd, Avl.performRotation, e2]
          · simp; omega
          · simp; omega
          · simp; omega
          · simp; omega
          · simp [Frame.fill, hd, ITree.inord]
    · by_cases hcmp : hb' ≤ f.sib.sh + 1
      · refine main f.sib (.node b hb' db bl br) (by simp [Frame.fill, hd]) (by simp; omega) (by simpa using hcmp)
          c4 ⟨b1, b2, b3, b4, b5⟩ ?_
        simp only [sh_node, Grew, hd]
        omega
      · refine rot f.sib (.node b hb' db bl br) (by simp [Frame.fill, hd]) (by simp; omega) ?_
        intro A1 z1
        cases dir with
        | leaf => simp only [Grew] at hg; omega
        | right =>
          simp only [Grew] at hg
          cases br with
          | nil => simp at hg; omega
          | node c hc dc cl cr =>
          obtain ⟨A2, e2, l2, z2⟩ := Avl.lRotate_spec (c := c) z1 rfl b5
          simp only [sh_node] at *
          refine ⟨c, A2, ⟨.left, b, 1 + max (1 + max f.sib.sh bl.sh) hc, db, .node c hc dc cl cr⟩,
            .node f.i (1 + max f.sib.sh bl.sh) f.d f.sib bl, ?_, ?_, l2, .inl rfl, z2, rfl,
            ⟨rfl, by omega, by omega, c4, b4⟩, ?_, ?_, ?_, b5, ?_, ?_⟩
          · simp [Avl.get_of z1.rep.2.2.1, AvlNode.child]
          · simp [hd, Avl.performRotation, e2]
          · simp; omega
          · simp; omega
          · simp
          · simp; omega
          · simp [Frame.fill, hd, ITree.inord]
        | left =>
          simp only [Grew] at hg
          cases bl with
          | nil => simp at hg; omega
          | node c hc dc cl cr =>
          obtain ⟨A2, e2, l2, z2⟩ := Avl.rlRotate_spec (c := c) z1
          obtain ⟨d1, d2, d3, d4, d5⟩ := b4
          have := d4.sh_nonneg
          have := d5.sh_nonneg
          simp only [sh_node] at *
          refine ⟨c, A2, ⟨.left, c, 1 + max (1 + max f.sib.sh cl.sh) (1 + max cr.sh br.sh), dc,
              .node b (1 + max cr.sh br.sh) db cr br⟩,
            .node f.i (1 + max f.sib.sh cl.sh) f.d f.sib cl, ?_, ?_, l2, .inl rfl, z2, rfl,
            ⟨rfl, by omega, by omega, c4, d4⟩, ?_, ?_, ?_,
            ⟨rfl, by omega, by omega, d5, b5⟩, ?_, ?_⟩
          · simp [Avl.get_of z1.rep.2.2.1, AvlNode.child]
          · simp [hd, Avl.performRotation, e2]
          · simp; omega
          · simp; omega
          · simp
          · simp; omega
          · simp [Frame.fill, hd, ITree.inord]

end Xdvdfs
