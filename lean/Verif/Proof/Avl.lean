import Verif.Model.Avl
import Verif.Spec.Avl

/-! # Helper lemmas about the arena AVL tree -/

namespace Xdvdfs

/-- Tree decorated with arena indices and recorded heights. -/
inductive ITree (α : Type) where
  | nil
  | node (i : Nat) (h : Int) (d : α) (l r : ITree α)

namespace ITree

def ptr : ITree α → Option Nat
  | nil => none
  | node i _ _ _ _ => some i

def sh : ITree α → Int
  | nil => 0
  | node _ h _ _ _ => h

def idxs : ITree α → List Nat
  | nil => []
  | node i _ _ l r => i :: (l.idxs ++ r.idxs)

@[simp] theorem ptr_nil : (nil : ITree α).ptr = none := rfl
@[simp] theorem ptr_node : (node i h d l r : ITree α).ptr = some i := rfl
@[simp] theorem sh_nil : (nil : ITree α).sh = 0 := rfl
@[simp] theorem sh_node : (node i h d l r : ITree α).sh = h := rfl

/-- In-order list of (index, element). -/
def inord : ITree α → List (Nat × α)
  | nil => []
  | node i _ d l r => l.inord ++ (i, d) :: r.inord

def erase : ITree α → Spec.BT α
  | nil => .nil
  | node _ _ d l r => .node l.erase d r.erase

/-- Recorded heights are exact and balanced. -/
def Bal : ITree α → Prop
  | nil => True
  | node _ h _ l r => h = 1 + max l.sh r.sh ∧ l.sh ≤ r.sh + 1 ∧ r.sh ≤ l.sh + 1 ∧ l.Bal ∧ r.Bal

/-- The arena holds this decorated tree. -/
def Rep (tr : List (AvlNode α)) : Option Nat → ITree α → Prop
  | _, nil => True
  | p, node i h d l r => tr[i]? = some ⟨l.ptr, r.ptr, p, h, d⟩ ∧ Rep tr (some i) l ∧ Rep tr (some i) r

theorem Rep.frame {tr tr' : List (AvlNode α)} {p : Option Nat} {t : ITree α}
    (h : Rep tr p t) (hf : ∀ j ∈ t.idxs, tr'[j]? = tr[j]?) : Rep tr' p t := by
  induction t generalizing p with
  | nil => trivial
  | node i hh d l r ihl ihr =>
    obtain ⟨h1, h2, h3⟩ := h
    refine ⟨?_, ihl h2 ?_, ihr h3 ?_⟩
    · rw [hf i (by simp [idxs]), h1]
    · intro j hj; exact hf j (by simp [idxs, hj])
    · intro j hj; exact hf j (by simp [idxs, hj])

theorem Rep.sh_eq {A : Avl α} {p : Option Nat} {t : ITree α} (h : Rep A.tree p t) :
    A.heightOf t.ptr = .ok t.sh := by
  cases t with
  | nil => rfl
  | node i hh d l r =>
    obtain ⟨h1, _, _⟩ := h
    simp [ptr, sh, Avl.heightOf, Avl.get, h1]

theorem Bal.sh_nonneg {t : ITree α} (h : t.Bal) : 0 ≤ t.sh := by
  induction t with
  | nil => simp [sh]
  | node i hh d l r ihl ihr =>
    obtain ⟨h1, _, _, h4, h5⟩ := h
    have := ihl h4; have := ihr h5
    simp only [sh]; omega

end ITree

open ITree

/-- One step of a path from a subtree up to the root. -/
structure Frame (α : Type) where
  dir : Dir          -- which child of `i` the hole is; never `leaf`
  i : Nat
  h : Int
  d : α
  sib : ITree α

namespace Frame

/-- The frame's node with the hole filled. -/
def fill (f : Frame α) (t : ITree α) : ITree α :=
  match f.dir with
  | .left => .node f.i f.h f.d t f.sib
  | _ => .node f.i f.h f.d f.sib t

def lptr (f : Frame α) (hole : Option Nat) : Option Nat :=
  match f.dir with
  | .left => hole
  | _ => f.sib.ptr

def rptr (f : Frame α) (hole : Option Nat) : Option Nat :=
  match f.dir with
  | .left => f.sib.ptr
  | _ => hole

end Frame

def ctxPtr : List (Frame α) → Option Nat
  | [] => none
  | f :: _ => some f.i

def ctxRoot : List (Frame α) → Option Nat → Option Nat
  | [], hole => hole
  | f :: fs, _ => ctxRoot fs (some f.i)

def ctxIdxs : List (Frame α) → List Nat
  | [] => []
  | f :: fs => f.i :: (f.sib.idxs ++ ctxIdxs fs)

def plug (t : ITree α) : List (Frame α) → ITree α
  | [] => t
  | f :: fs => plug (f.fill t) fs

def RepCtx (tr : List (AvlNode α)) : Option Nat → List (Frame α) → Prop
  | _, [] => True
  | hole, f :: fs =>
    (f.dir = .left ∨ f.dir = .right) ∧
    tr[f.i]? = some ⟨f.lptr hole, f.rptr hole, ctxPtr fs, f.h, f.d⟩ ∧
    Rep tr (some f.i) f.sib ∧ RepCtx tr (some f.i) fs

theorem RepCtx.frame {tr tr' : List (AvlNode α)} {hole : Option Nat} {fs : List (Frame α)}
    (h : RepCtx tr hole fs) (hf : ∀ j ∈ ctxIdxs fs, tr'[j]? = tr[j]?) : RepCtx tr' hole fs := by
  induction fs generalizing hole with
  | nil => trivial
  | cons f fs ih =>
    obtain ⟨h0, h1, h2, h3⟩ := h
    refine ⟨h0, ?_, h2.frame ?_, ih h3 ?_⟩
    · rw [hf f.i (by simp [ctxIdxs]), h1]
    · intro j hj; exact hf j (by simp [ctxIdxs, hj])
    · intro j hj; exact hf j (by simp [ctxIdxs, hj])

/-- Everything the rebalancing code relies on: the focused subtree and its context are stored, the
root pointer is right, and no node is used twice. -/
structure Zip (A : Avl α) (t : ITree α) (fs : List (Frame α)) : Prop where
  rep : Rep A.tree (ctxPtr fs) t
  ctx : RepCtx A.tree t.ptr fs
  root : A.root = ctxRoot fs t.ptr
  nodup : (t.idxs ++ ctxIdxs fs).Nodup

theorem plug_ptr (t : ITree α) (fs : List (Frame α)) : (plug t fs).ptr = ctxRoot fs t.ptr := by
  induction fs generalizing t with
  | nil => rfl
  | cons f fs ih =>
    simp only [plug, ctxRoot, ih]
    congr 1
    unfold Frame.fill; split <;> rfl

theorem fill_ptr (f : Frame α) (t : ITree α) : (f.fill t).ptr = some f.i := by
  unfold Frame.fill; split <;> rfl

theorem fill_idxs (f : Frame α) (t : ITree α) : List.Perm (f.fill t).idxs (f.i :: (f.sib.idxs ++ t.idxs)) := by
  unfold Frame.fill; split
  · simp only [ITree.idxs]; exact List.Perm.cons _ List.perm_append_comm
  · exact List.Perm.refl _

theorem plug_idxs (t : ITree α) (fs : List (Frame α)) :
    List.Perm (plug t fs).idxs (t.idxs ++ ctxIdxs fs) := by
  induction fs generalizing t with
  | nil => simp [plug, ctxIdxs]
  | cons f fs ih =>
    simp only [plug, ctxIdxs]
    refine (ih _).trans ?_
    refine ((fill_idxs f t).append_right _).trans ?_
    simp only [List.cons_append, List.append_assoc]
    refine List.Perm.trans ?_ (List.perm_middle (l₁ := t.idxs)).symm
    refine List.Perm.cons _ ?_
    rw [← List.append_assoc, ← List.append_assoc]
    exact List.perm_append_comm.append_right _

/-- Moving the focus to the parent. -/
theorem Zip.up_iff {A : Avl α} {t : ITree α} {f : Frame α} {fs : List (Frame α)} 
    (hd : f.dir = .left ∨ f.dir = .right) :
    Zip A t (f :: fs) ↔ Zip A (f.fill t) fs := by
  have hn : (t.idxs ++ ctxIdxs (f :: fs)).Nodup ↔ ((f.fill t).idxs ++ ctxIdxs fs).Nodup := by
    refine List.Perm.nodup_iff ?_
    have h := (fill_idxs f t).append_right (ctxIdxs fs)
    refine List.Perm.trans ?_ h.symm
    simp only [ctxIdxs, List.cons_append, List.append_assoc]
    refine (List.perm_middle (l₁ := t.idxs)).trans (List.Perm.cons _ ?_)
    rw [← List.append_assoc, ← List.append_assoc]
    exact List.perm_append_comm.append_right _
  constructor
  · rintro ⟨h1, ⟨_, h2, h3, h4⟩, h5, h6⟩
    refine ⟨?_, ?_, ?_, hn.1 h6⟩
    · rcases hd with hd | hd <;>
      · simp only [Frame.fill, hd, Rep]
        simp only [Frame.lptr, Frame.rptr, hd] at h2
        simp only [ctxPtr] at h1
        simp [*]
    · rw [fill_ptr]; exact h4
    · rw [fill_ptr]; exact h5
  · rintro ⟨h1, h2, h3, h4⟩
    rw [fill_ptr] at h2 h3
    refine ⟨?_, ⟨hd, ?_, ?_, h2⟩, h3, hn.2 h4⟩ <;>
    · rcases hd with hd | hd <;>
      · simp only [Frame.fill, hd, Rep] at h1
        try simp only [Frame.lptr, Frame.rptr, hd, ctxPtr]
        first | exact h1.1 | exact h1.2.1 | exact h1.2.2

theorem Zip.plug {A : Avl α} {t : ITree α} {fs : List (Frame α)} (h : Zip A t fs) :
    Zip A (plug t fs) [] := by
  induction fs generalizing t with
  | nil => exact h
  | cons f fs ih => exact ih ((Zip.up_iff h.ctx.1).1 h)

theorem getElem?_lt {l : List β} {i : Nat} {x : β} (h : l[i]? = some x) : i < l.length := by
  rw [List.getElem?_eq_some_iff] at h; exact h.1

theorem Avl.modify_spec {A : Avl α} {i : Nat} {n : AvlNode α} (f : AvlNode α → AvlNode α)
    (h : A.tree[i]? = some n) :
    ∃ A', A.modify i f = .ok A' ∧ A'.tree[i]? = some (f n) ∧
      (∀ j, j ≠ i → A'.tree[j]? = A.tree[j]?) ∧ A'.root = A.root ∧
      A'.tree.length = A.tree.length := by
  refine ⟨_, if_pos (getElem?_lt h), ?_, ?_, rfl, ?_⟩
  · simp [h]
  · intro j hj
    simp [Ne.symm hj]
  · simp

theorem Avl.setParentOpt_spec {A : Avl α} {i : Nat} {p : Option Nat} {t : ITree α}
    (ht : Rep A.tree p t) (hnd : t.idxs.Nodup) :
    ∃ A', A.setParentOpt t.ptr i = .ok A' ∧ Rep A'.tree (some i) t ∧
      (∀ j, j ∉ t.idxs → A'.tree[j]? = A.tree[j]?) ∧ A'.root = A.root ∧
      A'.tree.length = A.tree.length := by
  cases t with
  | nil => exact ⟨A, rfl, trivial, fun _ _ => rfl, rfl, rfl⟩
  | node k h d l r =>
    obtain ⟨h1, h2, h3⟩ := ht
    simp only [ITree.idxs, List.nodup_cons, List.mem_append, not_or] at hnd
    obtain ⟨A', e, g1, g2, g3, g4⟩ := Avl.modify_spec (fun n => { n with parent := some i }) h1
    refine ⟨A', e, ⟨g1, h2.frame ?_, h3.frame ?_⟩, ?_, g3, g4⟩
    · intro j hj; exact g2 j (by rintro rfl; exact hnd.1.1 hj)
    · intro j hj; exact g2 j (by rintro rfl; exact hnd.1.2 hj)
    · intro j hj; exact g2 j (by rintro rfl; exact hj (by simp [ITree.idxs]))

theorem Avl.setLeftChild_spec {A : Avl α} {i : Nat} {n : AvlNode α} {p : Option Nat} {t : ITree α}
    (hi : A.tree[i]? = some n) (ht : Rep A.tree p t) (hnd : t.idxs.Nodup) (hni : i ∉ t.idxs) :
    ∃ A', A.setLeftChild i t.ptr = .ok A' ∧ A'.tree[i]? = some { n with left := t.ptr } ∧
      Rep A'.tree (some i) t ∧
      (∀ j, j ≠ i → j ∉ t.idxs → A'.tree[j]? = A.tree[j]?) ∧ A'.root = A.root ∧
      A'.tree.length = A.tree.length := by
  obtain ⟨A1, e1, a1, b1, c1, d1⟩ := Avl.modify_spec (fun n => { n with left := t.ptr }) hi
  have ht1 : Rep A1.tree p t := ht.frame fun j hj => b1 j (by rintro rfl; exact hni hj)
  obtain ⟨A2, e2, a2, b2, c2, d2⟩ := Avl.setParentOpt_spec (i := i) ht1 hnd
  refine ⟨A2, by simp [Avl.setLeftChild, e1, e2], ?_, a2, ?_, by rw [c2, c1], by rw [d2, d1]⟩
  · rw [b2 i hni, a1]
  · intro j hj hj'; rw [b2 j hj', b1 j hj]

theorem Avl.setRightChild_spec {A : Avl α} {i : Nat} {n : AvlNode α} {p : Option Nat} {t : ITree α}
    (hi : A.tree[i]? = some n) (ht : Rep A.tree p t) (hnd : t.idxs.Nodup) (hni : i ∉ t.idxs) :
    ∃ A', A.setRightChild i t.ptr = .ok A' ∧ A'.tree[i]? = some { n with right := t.ptr } ∧
      Rep A'.tree (some i) t ∧
      (∀ j, j ≠ i → j ∉ t.idxs → A'.tree[j]? = A.tree[j]?) ∧ A'.root = A.root ∧
      A'.tree.length = A.tree.length := by
  obtain ⟨A1, e1, a1, b1, c1, d1⟩ := Avl.modify_spec (fun n => { n with right := t.ptr }) hi
  have ht1 : Rep A1.tree p t := ht.frame fun j hj => b1 j (by rintro rfl; exact hni hj)
  obtain ⟨A2, e2, a2, b2, c2, d2⟩ := Avl.setParentOpt_spec (i := i) ht1 hnd
  refine ⟨A2, by simp [Avl.setRightChild, e1, e2], ?_, a2, ?_, by rw [c2, c1], by rw [d2, d1]⟩
  · rw [b2 i hni, a1]
  · intro j hj hj'; rw [b2 j hj', b1 j hj]

theorem Avl.updateHeight_spec {A : Avl α} {i : Nat} {h : Int} {d : α} {p : Option Nat}
    {l r : ITree α} (hr : Rep A.tree p (.node i h d l r)) (hnd : (ITree.node i h d l r).idxs.Nodup) :
    ∃ A', A.updateHeight i = .ok A' ∧ Rep A'.tree p (.node i (1 + max l.sh r.sh) d l r) ∧
      (∀ j, j ≠ i → A'.tree[j]? = A.tree[j]?) ∧ A'.root = A.root ∧
      A'.tree.length = A.tree.length := by
  obtain ⟨h1, h2, h3⟩ := hr
  obtain ⟨A', e, a1, b1, c1, d1⟩ :=
    Avl.modify_spec (fun n => { n with height := 1 + max l.sh r.sh }) h1
  simp only [ITree.idxs, List.nodup_cons, List.mem_append, not_or] at hnd
  refine ⟨A', ?_, ⟨a1, h2.frame ?_, h3.frame ?_⟩, b1, c1, d1⟩
  · simp [Avl.updateHeight, Avl.get, h1, h2.sh_eq, h3.sh_eq, e]
  · intro j hj; exact b1 j (by rintro rfl; exact hnd.1.1 hj)
  · intro j hj; exact b1 j (by rintro rfl; exact hnd.1.2 hj)

theorem Avl.balanceFactor_spec {A : Avl α} {i : Nat} {h : Int} {d : α} {p : Option Nat}
    {l r : ITree α} (hr : Rep A.tree p (.node i h d l r)) :
    A.balanceFactor i = .ok (l.sh - r.sh) := by
  obtain ⟨h1, h2, h3⟩ := hr
  simp [Avl.balanceFactor, Avl.get, h1, h2.sh_eq, h3.sh_eq]

theorem ITree.ptr_mem {t : ITree α} {k : Nat} (h : t.ptr = some k) : k ∈ t.idxs := by
  cases t <;> simp_all [ITree.ptr, ITree.idxs]

theorem Avl.parentDirection_spec {A : Avl α} {k : Nat} {n : AvlNode α} {fs : List (Frame α)}
    (hk : A.tree[k]? = some n) (hp : n.parent = ctxPtr fs) (hc : RepCtx A.tree (some k) fs)
    (hnk : k ∉ ctxIdxs fs) :
    A.parentDirection k = .ok (match fs with | [] => none | f :: _ => some (f.i, f.dir)) := by
  cases fs with
  | nil => simp [ctxPtr] at hp; simp [Avl.parentDirection, Avl.get, hk, hp]
  | cons f fs =>
    obtain ⟨hd, h1, h2, h3⟩ := hc
    simp only [ctxPtr] at hp
    rcases hd with hd | hd
    · simp [Avl.parentDirection, Avl.get, hk, hp, h1, Frame.lptr, hd]
    · have : f.sib.ptr ≠ some k := by
        intro hs
        exact hnk (by simp [ctxIdxs, ITree.ptr_mem hs])
      simp [Avl.parentDirection, Avl.get, hk, hp, h1, Frame.lptr, Frame.rptr, hd, this]

theorem Avl.setParentRef_spec {A : Avl α} {k b : Nat} {n : AvlNode α} {fs : List (Frame α)}
    (hk : A.tree[k]? = some n) (hp : n.parent = ctxPtr fs) (hc : RepCtx A.tree (some k) fs)
    (hnd : (ctxIdxs fs).Nodup) (hnk : k ∉ ctxIdxs fs) (hroot : A.root = ctxRoot fs (some k)) :
    ∃ A', A.setParentRef k (some b) = .ok A' ∧ RepCtx A'.tree (some b) fs ∧
      A'.root = ctxRoot fs (some b) ∧
      (∀ j, j ∉ ctxIdxs fs → A'.tree[j]? = A.tree[j]?) ∧ A'.tree.length = A.tree.length := by
  have hpd := Avl.parentDirection_spec hk hp hc hnk
  cases fs with
  | nil =>
    refine ⟨{ A with root := some b }, by simp [Avl.setParentRef, hpd], trivial, rfl, fun _ _ => rfl, rfl⟩
  | cons f fs =>
    obtain ⟨hd, h1, h2, h3⟩ := hc
    simp only [ctxIdxs, List.nodup_cons, List.mem_append, not_or] at hnd
    rcases hd with hd | hd
    · obtain ⟨A', e, a1, b1, c1, d1⟩ := Avl.modify_spec (fun n => { n with left := some b }) h1
      refine ⟨A', ?_, ⟨.inl hd, ?_, h2.frame ?_, h3.frame ?_⟩, ?_, ?_, d1⟩
      · simp [Avl.setParentRef, hpd, hd, e]
      · simp [a1, Frame.lptr, Frame.rptr, hd]
      · intro j hj; exact b1 j (by rintro rfl; exact hnd.1.1 hj)
      · intro j hj; exact b1 j (by rintro rfl; exact hnd.1.2 hj)
      · rw [c1, hroot]; rfl
      · intro j hj; exact b1 j (by rintro rfl; exact hj (by simp [ctxIdxs]))
    · obtain ⟨A', e, a1, b1, c1, d1⟩ := Avl.modify_spec (fun n => { n with right := some b }) h1
      refine ⟨A', ?_, ⟨.inr hd, ?_, h2.frame ?_, h3.frame ?_⟩, ?_, ?_, d1⟩
      · simp [Avl.setParentRef, hpd, hd, e]
      · simp [a1, Frame.lptr, Frame.rptr, hd]
      · intro j hj; exact b1 j (by rintro rfl; exact hnd.1.1 hj)
      · intro j hj; exact b1 j (by rintro rfl; exact hnd.1.2 hj)
      · rw [c1, hroot]; rfl
      · intro j hj; exact b1 j (by rintro rfl; exact hj (by simp [ctxIdxs]))

end Xdvdfs
