import Verif.Basic

/-!
# Walks with an explicit stack
-/

namespace Xdvdfs

variable {N O : Type}

/-- A walk: take a node off the stack, append its output, push its children. -/
def dfs (step : N → Res (List N × List O)) : Nat → List N → List O → Res (List O)
  | _, [], acc => .ok acc
  | 0, _ :: _, _ => .hang
  | fuel + 1, n :: stack, acc => do
    let r ← step n
    dfs step fuel (r.1 ++ stack) (acc ++ r.2)

inductive Reach (step : N → Res (List N × List O)) : N → N → Prop
  | refl (n : N) : Reach step n n
  | step {n c n' : N} {cs : List N} {os : List O} : step n = .ok (cs, os) → c ∈ cs → Reach step c n' → Reach step n n'

theorem Reach.snoc {step : N → Res (List N × List O)} {n m c : N} {cs : List N} {os : List O}
    (h : Reach step n m) (hs : step m = .ok (cs, os)) (hc : c ∈ cs) : Reach step n c := by
  induction h with
  | refl n => exact .step hs hc (.refl c)
  | step h1 h2 _ ih => exact .step h1 h2 (ih hs)

/-- What a successful walk returns. -/
theorem dfs_ok {step : N → Res (List N × List O)} : ∀ {fuel : Nat} {stack : List N} {acc out : List O},
    dfs step fuel stack acc = .ok out →
    (∀ o, o ∈ out ↔ o ∈ acc ∨ ∃ n ∈ stack, ∃ n' cs os, Reach step n n' ∧ step n' = .ok (cs, os) ∧ o ∈ os) ∧
    ∀ n ∈ stack, ∀ n', Reach step n n' → ∃ cs os, step n' = .ok (cs, os) := by
  intro fuel
  induction fuel with
  | zero =>
    intro stack acc out h
    cases stack with
    | nil => cases h; simp
    | cons n stack => cases h
  | succ fuel ih =>
    intro stack acc out h
    cases stack with
    | nil => cases h; simp
    | cons n stack =>
      simp only [dfs] at h
      obtain ⟨⟨cs, os⟩, h1, h2⟩ := Res.bind_eq_ok.1 h
      obtain ⟨i1, i2⟩ := ih h2
      have hcase : ∀ n', Reach step n n' → n' = n ∨ ∃ c ∈ cs, Reach step c n' := by
        intro n' hr
        cases hr with
        | refl => exact .inl rfl
        | step k1 k2 k3 =>
          rw [h1] at k1; cases k1
          exact .inr ⟨_, k2, k3⟩
      constructor
      · intro o
        rw [i1]
        constructor
        · rintro (ho | ⟨m, hm, n', cs', os', hr, hs, ho⟩)
          · rcases List.mem_append.1 ho with ho | ho
            · exact .inl ho
            · exact .inr ⟨n, by simp, n, cs, os, .refl n, h1, ho⟩
          · rcases List.mem_append.1 hm with hm | hm
            · exact .inr ⟨n, by simp, n', cs', os', .step h1 hm hr, hs, ho⟩
            · exact .inr ⟨m, by simp [hm], n', cs', os', hr, hs, ho⟩
        · rintro (ho | ⟨m, hm, n', cs', os', hr, hs, ho⟩)
          · exact .inl (by simp [ho])
          · rcases List.mem_cons.1 hm with rfl | hm
            · rcases hcase n' hr with rfl | ⟨c, hc, hr⟩
              · rw [h1] at hs; cases hs
                exact .inl (by simp [ho])
              · exact .inr ⟨c, by simp [hc], n', cs', os', hr, hs, ho⟩
            · exact .inr ⟨m, by simp [hm], n', cs', os', hr, hs, ho⟩
      · intro m hm n' hr
        rcases List.mem_cons.1 hm with rfl | hm
        · rcases hcase n' hr with rfl | ⟨c, hc, hr⟩
          · exact ⟨cs, os, h1⟩
          · exact i2 c (by simp [hc]) n' hr
        · exact i2 m (by simp [hm]) n' hr

/-- Child relation. -/
def ChildOf (step : N → Res (List N × List O)) (c n : N) : Prop := ∃ cs os, step n = .ok (cs, os) ∧ c ∈ cs

/-- A walk below which there is no infinite path ends. -/
theorem dfs_ends {step : N → Res (List N × List O)} {n : N} (hacc : Acc (ChildOf step) n)
    (hok : ∀ n', Reach step n n' → ∃ cs os, step n' = .ok (cs, os)) :
    ∃ k outs, ∀ fuel stack acc, dfs step (k + fuel) (n :: stack) acc = dfs step fuel stack (acc ++ outs) := by
  induction hacc with
  | intro n _ ih =>
    obtain ⟨cs, os, hs⟩ := hok n (.refl n)
    have key : ∀ (l : List N), (∀ c ∈ l, c ∈ cs) →
        ∃ k outs, ∀ fuel stack acc, dfs step (k + fuel) (l ++ stack) acc = dfs step fuel stack (acc ++ outs) := by
      intro l
      induction l with
      | nil => intro _; exact ⟨0, [], by simp⟩
      | cons c l ihl =>
        intro hl
        obtain ⟨k1, o1, e1⟩ := ih c ⟨cs, os, hs, hl c (by simp)⟩ (fun n' hr => hok n' (.step hs (hl c (by simp)) hr))
        obtain ⟨k2, o2, e2⟩ := ihl (fun x hx => hl x (by simp [hx]))
        refine ⟨k1 + k2, o1 ++ o2, ?_⟩
        intro fuel stack acc
        rw [List.cons_append, Nat.add_assoc, e1, e2, List.append_assoc]
    obtain ⟨k, outs, e⟩ := key cs (fun c hc => hc)
    refine ⟨k + 1, os ++ outs, ?_⟩
    intro fuel stack acc
    rw [Nat.add_right_comm, dfs, hs, Res.ok_bind, e, List.append_assoc]

end Xdvdfs
