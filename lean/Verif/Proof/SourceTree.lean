import Verif.Spec.Pack
import Verif.Proof.Plan

/-!
# Scanning the source tree
-/

namespace Xdvdfs

open Spec

/-- The directories visited from a stack, with their listings, in order. -/
inductive Walked (rd : ReadDir) : List Path → List (Path × List FileEntry) → Prop
  | nil : Walked rd [] []
  | cons {d ds l D} : rd d = .ok l → Walked rd ((subdirPaths d l).reverse ++ ds) D →
      Walked rd (d :: ds) ((d, l) :: D)

def discovered (D : List (Path × List FileEntry)) : List Op :=
  D.map (fun x => .report (.discoveredDirectory x.2.length))

theorem Pl.bind_ok_iff {x : Pl α} {f : α → Pl β} {b : β} :
    (x >>= f).res = .ok b ↔ ∃ a, x.res = .ok a ∧ (f a).res = .ok b := by
  obtain ⟨ops, res⟩ := x
  show (Pl.bind ⟨ops, res⟩ f).res = _ ↔ _
  cases res <;> simp [Pl.bind]

theorem Pl.bind_ops_ok {x : Pl α} {f : α → Pl β} {a : α} (h : x.res = .ok a) :
    (x >>= f).ops = x.ops ++ (f a).ops ∧ (x >>= f).res = (f a).res := by
  obtain ⟨ops, res⟩ := x
  cases h
  exact ⟨rfl, rfl⟩

theorem Pl.bind_ops_of_not_ok {x : Pl α} {f : α → Pl β} (h : ∀ a, x.res ≠ .ok a) :
    (x >>= f).ops = x.ops ∧ ∀ b, (x >>= f).res ≠ .ok b := by
  obtain ⟨ops, res⟩ := x
  cases res with
  | ok a => exact absurd rfl (h a)
  | err e => exact ⟨rfl, fun b hb => by cases hb⟩
  | panic => exact ⟨rfl, fun b hb => by cases hb⟩
  | hang => exact ⟨rfl, fun b hb => by cases hb⟩

/-- Every operation of a composite is an operation of a part. -/
theorem Pl.ops_bind {x : Pl α} {f : α → Pl β} {P : Op → Prop} (hx : ∀ o ∈ x.ops, P o)
    (hf : ∀ a, x.res = .ok a → ∀ o ∈ (f a).ops, P o) : ∀ o ∈ (x >>= f).ops, P o := by
  intro o ho
  cases h : x.res with
  | ok a =>
    rw [(Pl.bind_ops_ok h).1, List.mem_append] at ho
    rcases ho with ho | ho
    · exact hx o ho
    · exact hf a h o ho
  | err e => rw [(Pl.bind_ops_of_not_ok (by simp [h])).1] at ho; exact hx o ho
  | panic => rw [(Pl.bind_ops_of_not_ok (by simp [h])).1] at ho; exact hx o ho
  | hang => rw [(Pl.bind_ops_of_not_ok (by simp [h])).1] at ho; exact hx o ho

def Op.IsReport : Op → Prop
  | .report _ => True
  | _ => False

theorem dirTreeLoopP_reports (rd : ReadDir) : ∀ fuel stack out,
    ∀ o ∈ (dirTreeLoopP rd fuel stack out).ops, o.IsReport := by
  intro fuel
  induction fuel with
  | zero =>
    intro stack out
    cases stack with
    | nil => intro o ho; exact absurd ho (by simp [dirTreeLoopP, Pure.pure, Pl.pure])
    | cons => intro o ho; exact absurd ho (by simp [dirTreeLoopP, Pl.lift])
  | succ fuel ih =>
    intro stack out
    cases stack with
    | nil => intro o ho; exact absurd ho (by simp [dirTreeLoopP, Pure.pure, Pl.pure])
    | cons d ds =>
      simp only [dirTreeLoopP]
      refine Pl.ops_bind (by simp [Pl.lift]) ?_
      intro l _
      refine Pl.ops_bind (by simp [Pl.op, Op.IsReport]) ?_
      intro _ _
      exact ih _ _

theorem dirTreeLoopP_ok {rd : ReadDir} : ∀ {fuel stack out D},
    (dirTreeLoopP rd fuel stack out).res = .ok D →
    ∃ D', D = out.reverse ++ D' ∧ Walked rd stack D' ∧ D'.length ≤ fuel ∧
      (dirTreeLoopP rd fuel stack out).ops = discovered D' := by
  intro fuel
  induction fuel with
  | zero =>
    intro stack out D h
    cases stack with
    | nil => cases h; exact ⟨[], by simp, .nil, by simp, rfl⟩
    | cons => cases h
  | succ fuel ih =>
    intro stack out D h
    cases stack with
    | nil => cases h; exact ⟨[], by simp, .nil, by simp, rfl⟩
    | cons d ds =>
      simp only [dirTreeLoopP] at h ⊢
      obtain ⟨l, h1, h2⟩ := Pl.bind_ok_iff.1 h
      obtain ⟨_, h3, h4⟩ := Pl.bind_ok_iff.1 h2
      obtain ⟨D', e1, e2, e3, e4⟩ := ih h4
      refine ⟨(d, l) :: D', by simp [e1], .cons h1 e2, by simp; omega, ?_⟩
      rw [(Pl.bind_ops_ok h1).1, (Pl.bind_ops_ok h3).1, e4]
      rfl

theorem dirTreeLoopP_of_walked {rd : ReadDir} {stack D} (h : Walked rd stack D) : ∀ {fuel out},
    D.length ≤ fuel →
    dirTreeLoopP rd fuel stack out = ⟨discovered D, .ok (out.reverse ++ D)⟩ := by
  induction h with
  | nil => intro fuel out _; cases fuel <;> simp [dirTreeLoopP, discovered, Pure.pure, Pl.pure]
  | @cons d ds l D h1 h2 ih =>
    intro fuel out hf
    obtain ⟨f, rfl⟩ : ∃ f, fuel = f + 1 := ⟨fuel - 1, by simp at hf; omega⟩
    simp only [dirTreeLoopP, h1]
    show Pl.bind _ _ = _
    simp only [Pl.bind, Pl.lift, Pl.op, bind, ih (fuel := f) (out := (d, l) :: out) (by simpa using hf)]
    simp [discovered]

theorem mem_subdirPaths {d q : Path} {l : List FileEntry} :
    q ∈ subdirPaths d l ↔ ∃ e ∈ l, e.isDir = true ∧ q = d ++ [e.name] := by
  simp only [subdirPaths, List.mem_map, List.mem_filter, fromBase]
  constructor
  · rintro ⟨e, ⟨h1, h2⟩, h3⟩; exact ⟨e, h1, h2, h3.symm⟩
  · rintro ⟨e, h1, h2, h3⟩; exact ⟨e, ⟨h1, h2⟩, h3.symm⟩

theorem Walked.stack_mem {rd : ReadDir} {stack D} (h : Walked rd stack D) :
    ∀ q ∈ stack, q ∈ D.map Prod.fst := by
  induction h with
  | nil => simp
  | cons h1 h2 ih =>
    intro q hq
    rcases List.mem_cons.1 hq with rfl | hq
    · simp
    · exact List.mem_cons_of_mem _ (ih q (by simp [hq]))

/-- Subdirectories come later. -/
theorem Walked.subs {rd : ReadDir} {stack D} (h : Walked rd stack D) :
    ∀ pre p l post, D = pre ++ (p, l) :: post →
      rd p = .ok l ∧ ∀ e ∈ l, e.isDir = true → p ++ [e.name] ∈ post.map Prod.fst := by
  induction h with
  | nil => intro pre p l post h; simp at h
  | @cons d ds l' D h1 h2 ih =>
    intro pre p l post h
    cases pre with
    | nil =>
      simp only [List.nil_append, List.cons.injEq, Prod.mk.injEq] at h
      obtain ⟨⟨rfl, rfl⟩, rfl⟩ := h
      refine ⟨h1, ?_⟩
      intro e he hd
      apply h2.stack_mem
      simp only [List.mem_append, List.mem_reverse]
      exact .inl (mem_subdirPaths.2 ⟨e, he, hd, rfl⟩)
    | cons x pre =>
      simp only [List.cons_append, List.cons.injEq] at h
      exact ih pre p l post h.2

theorem Walked.readDir {rd : ReadDir} {stack D} (h : Walked rd stack D) {p l} (hm : (p, l) ∈ D) :
    rd p = .ok l := by
  obtain ⟨pre, post, rfl⟩ := List.append_of_mem hm
  exact (h.subs pre p l post rfl).1

theorem Walked.dirOf {rd : ReadDir} {stack D} (h : Walked rd stack D)
    (hs : ∀ q ∈ stack, DirOf rd q) : ∀ x ∈ D, DirOf rd x.1 := by
  induction h with
  | nil => simp
  | @cons d ds l D h1 h2 ih =>
    intro x hx
    rcases List.mem_cons.1 hx with rfl | hx
    · exact hs _ (by simp)
    · refine ih ?_ x hx
      intro q hq
      simp only [List.mem_append, List.mem_reverse] at hq
      rcases hq with hq | hq
      · obtain ⟨e, he, hd, rfl⟩ := mem_subdirPaths.1 hq
        exact .sub (hs _ (by simp)) h1 he hd
      · exact hs q (by simp [hq])

/-- The directories visited from the root are the directories of the source. -/
theorem Walked.mem_iff {rd : ReadDir} {D} (h : Walked rd [[]] D) (p : Path) :
    p ∈ D.map Prod.fst ↔ DirOf rd p := by
  constructor
  · intro hp
    obtain ⟨x, hx, rfl⟩ := List.mem_map.1 hp
    exact h.dirOf (by simp [DirOf.root]) x hx
  · intro hp
    induction hp with
    | root => exact h.stack_mem _ (by simp)
    | @sub p l e h1 h2 h3 h4 ih =>
      obtain ⟨x, hx, rfl⟩ := List.mem_map.1 ih
      obtain ⟨p, l'⟩ := x
      obtain ⟨pre, post, rfl⟩ := List.append_of_mem hx
      have h5 := h.subs pre p l' post rfl
      rw [h5.1] at h2
      cases h2
      have := h5.2 e h3 h4
      simp only [List.map_append, List.map_cons, List.mem_append, List.mem_cons]
      exact .inr (.inr this)

theorem prefix_snoc_iff {q p : Path} {n : Str} : q <+: p ++ [n] ↔ q <+: p ∨ q = p ++ [n] := by
  rw [List.prefix_concat_iff]
  exact or_comm

/-- If every listing has distinct names, no directory is visited twice. -/
theorem Walked.nodup_aux {rd : ReadDir} {stack D} (h : Walked rd stack D)
    (hd : ∀ x ∈ D, (x.2.map FileEntry.name).Nodup)
    (hs : stack.Pairwise (fun a b => ¬ a <+: b ∧ ¬ b <+: a)) :
    (D.map Prod.fst).Nodup ∧ ∀ v ∈ D.map Prod.fst, ∃ q ∈ stack, q <+: v := by
  induction h with
  | nil => simp
  | @cons d ds l D h1 h2 ih =>
    have hs' := List.pairwise_cons.1 hs
    have hl : (l.map FileEntry.name).Nodup := hd (d, l) (by simp)
    have hnew : ((subdirPaths d l).reverse ++ ds).Pairwise (fun a b => ¬ a <+: b ∧ ¬ b <+: a) := by
      rw [List.pairwise_append]
      refine ⟨?_, hs'.2, ?_⟩
      · rw [List.pairwise_reverse]
        unfold subdirPaths
        rw [List.pairwise_map]
        have hf : (l.filter (·.isDir)).Pairwise (fun a b => a.name ≠ b.name) := by
          have : l.Pairwise (fun a b => a.name ≠ b.name) := by
            rw [List.nodup_iff_pairwise_ne, List.pairwise_map] at hl; exact hl
          exact this.filter _
        refine hf.imp ?_
        intro a b hab
        have : ∀ x y : Str, x ≠ y → ¬ d ++ [x] <+: d ++ [y] := by
          intro x y hxy hp
          have := hp.eq_of_length (by simp)
          simp at this
          exact hxy this
        exact ⟨this _ _ (Ne.symm hab), this _ _ hab⟩
      · intro a ha b hb
        rw [List.mem_reverse] at ha
        obtain ⟨e, he, hed, rfl⟩ := mem_subdirPaths.1 ha
        obtain ⟨k1, k2⟩ := hs'.1 b hb
        constructor
        · intro hp
          exact k1 ((List.prefix_append d [e.name]).trans hp)
        · intro hp
          rcases prefix_snoc_iff.1 hp with hp | rfl
          · exact k2 hp
          · exact k1 (List.prefix_append d [e.name])
    obtain ⟨i1, i2⟩ := ih (fun x hx => hd x (by simp [hx])) hnew
    have hpref : ∀ v ∈ D.map Prod.fst, (d <+: v ∧ v ≠ d) ∨ ∃ q ∈ ds, q <+: v := by
      intro v hv
      obtain ⟨q, hq, hqv⟩ := i2 v hv
      simp only [List.mem_append, List.mem_reverse] at hq
      rcases hq with hq | hq
      · obtain ⟨e, he, hed, rfl⟩ := mem_subdirPaths.1 hq
        refine .inl ⟨(List.prefix_append d [e.name]).trans hqv, ?_⟩
        rintro rfl
        have := hqv.length_le
        simp at this
        omega
      · exact .inr ⟨q, hq, hqv⟩
    constructor
    · rw [List.map_cons, List.nodup_cons]
      refine ⟨?_, i1⟩
      intro hmem
      rcases hpref d hmem with ⟨_, h⟩ | ⟨q, hq, hqd⟩
      · exact h rfl
      · exact (hs'.1 q hq).2 hqd
    · intro v hv
      rw [List.map_cons, List.mem_cons] at hv
      rcases hv with rfl | hv
      · exact ⟨_, by simp, List.prefix_refl _⟩
      · rcases hpref v hv with ⟨h, _⟩ | ⟨q, hq, hqv⟩
        · exact ⟨d, by simp, h⟩
        · exact ⟨q, by simp [hq], hqv⟩

theorem Walked.nodup {rd : ReadDir} {D} (h : Walked rd [[]] D)
    (hd : ∀ x ∈ D, (x.2.map FileEntry.name).Nodup) : (D.map Prod.fst).Nodup :=
  (h.nodup_aux hd (by simp)).1

theorem Walked.head {rd : ReadDir} {D} (h : Walked rd [[]] D) : ∃ l D', D = ([], l) :: D' := by
  cases h with
  | cons h1 h2 => exact ⟨_, _, rfl⟩

theorem Walked.det {rd : ReadDir} {stack D E} (h : Walked rd stack D) (h' : Walked rd stack E) :
    D = E := by
  induction h generalizing E with
  | nil => cases h'; rfl
  | @cons d ds l D h1 h2 ih =>
    cases h' with
    | cons k1 k2 =>
      rw [h1] at k1
      cases k1
      rw [ih k2]

end Xdvdfs
