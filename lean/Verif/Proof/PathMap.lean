import Verif.Model.Path

/-!
# Path order and ordered maps
-/

namespace Xdvdfs

theorem cmpStr_eq_iff : ∀ (a b : Str), cmpStr a b = .eq ↔ a = b := by
  intro a
  induction a with
  | nil => intro b; cases b <;> simp [cmpStr]
  | cons x xs ih =>
    intro b
    cases b with
    | nil => simp [cmpStr]
    | cons y ys =>
      simp only [cmpStr]
      split
      · next h =>
        rw [Nat.compare_eq_eq] at h
        have : x = y := Char.toNat_inj.mp h
        simp [ih, this]
      · next o h =>
        constructor
        · intro h'; exact absurd h' h
        · intro h'; injection h' with h1 h2; subst h1; simp at h

theorem cmpStr_swap : ∀ (a b : Str), (cmpStr a b).swap = cmpStr b a := by
  intro a
  induction a with
  | nil => intro b; cases b <;> rfl
  | cons x xs ih =>
    intro b
    cases b with
    | nil => rfl
    | cons y ys =>
      simp only [cmpStr]
      rw [← Nat.compare_swap y.toNat x.toNat]
      cases h : compare y.toNat x.toNat <;> simp [ih]

theorem cmpStr_lt_trans : ∀ {a b c : Str}, cmpStr a b = .lt → cmpStr b c = .lt → cmpStr a c = .lt := by
  intro a
  induction a with
  | nil => intro b c h1 h2; cases b <;> cases c <;> simp_all [cmpStr]
  | cons x xs ih =>
    intro b c h1 h2
    cases b with
    | nil => simp [cmpStr] at h1
    | cons y ys =>
      cases c with
      | nil => simp [cmpStr] at h2
      | cons z zs =>
        simp only [cmpStr] at h1 h2 ⊢
        cases hxy : compare x.toNat y.toNat with
        | gt => rw [hxy] at h1; simp at h1
        | eq =>
          rw [hxy] at h1
          rw [Nat.compare_eq_eq] at hxy
          rw [hxy]
          cases hyz : compare y.toNat z.toNat with
          | gt => rw [hyz] at h2; simp at h2
          | eq => rw [hyz] at h2; exact ih h1 h2
          | lt => rfl
        | lt =>
          rw [Nat.compare_eq_lt] at hxy
          cases hyz : compare y.toNat z.toNat with
          | gt => rw [hyz] at h2; simp at h2
          | eq =>
            rw [Nat.compare_eq_eq] at hyz
            rw [← hyz, Nat.compare_eq_lt.2 hxy]
          | lt =>
            rw [Nat.compare_eq_lt] at hyz
            rw [Nat.compare_eq_lt.2 (Nat.lt_trans hxy hyz)]

theorem cmpPath_eq_iff : ∀ (a b : Path), cmpPath a b = .eq ↔ a = b := by
  intro a
  induction a with
  | nil => intro b; cases b <;> simp [cmpPath]
  | cons x xs ih =>
    intro b
    cases b with
    | nil => simp [cmpPath]
    | cons y ys =>
      simp only [cmpPath]
      split
      · next h =>
        have := (cmpStr_eq_iff _ _).1 h
        simp [ih, this]
      · next o h =>
        constructor
        · intro h'; exact absurd h' h
        · intro h'
          injection h' with h1 h2
          exact absurd ((cmpStr_eq_iff _ _).2 h1) h

theorem cmpPath_swap : ∀ (a b : Path), (cmpPath a b).swap = cmpPath b a := by
  intro a
  induction a with
  | nil => intro b; cases b <;> rfl
  | cons x xs ih =>
    intro b
    cases b with
    | nil => rfl
    | cons y ys =>
      simp only [cmpPath]
      rw [← cmpStr_swap y x]
      cases h : cmpStr y x <;> simp [ih]

theorem cmpPath_lt_trans : ∀ {a b c : Path}, cmpPath a b = .lt → cmpPath b c = .lt →
    cmpPath a c = .lt := by
  intro a
  induction a with
  | nil => intro b c h1 h2; cases b <;> cases c <;> simp_all [cmpPath]
  | cons x xs ih =>
    intro b c h1 h2
    cases b with
    | nil => simp [cmpPath] at h1
    | cons y ys =>
      cases c with
      | nil => simp [cmpPath] at h2
      | cons z zs =>
        simp only [cmpPath] at h1 h2 ⊢
        cases hxy : cmpStr x y with
        | gt => rw [hxy] at h1; simp at h1
        | eq =>
          rw [hxy] at h1
          rw [cmpStr_eq_iff] at hxy
          rw [hxy]
          cases hyz : cmpStr y z with
          | gt => rw [hyz] at h2; simp at h2
          | eq => rw [hyz] at h2; exact ih h1 h2
          | lt => rfl
        | lt =>
          cases hyz : cmpStr y z with
          | gt => rw [hyz] at h2; simp at h2
          | eq =>
            rw [cmpStr_eq_iff] at hyz
            rw [← hyz, hxy]
          | lt => rw [cmpStr_lt_trans hxy hyz]

theorem cmpPath_gt {a b : Path} (h : cmpPath a b = .gt) : cmpPath b a = .lt := by
  rw [← cmpPath_swap a b, h]; rfl

theorem cmpPath_snoc (p : Path) (n : Str) : cmpPath p (p ++ [n]) = .lt := by
  induction p with
  | nil => rfl
  | cons x xs ih =>
    simp only [List.cons_append, cmpPath, (cmpStr_eq_iff x x).2 rfl, ih]

theorem cmpPath_nil {p : Path} (h : p ≠ []) : cmpPath [] p = .lt := by
  cases p with
  | nil => exact absurd rfl h
  | cons _ _ => rfl

namespace PathMap

def Sorted (m : PathMap β) : Prop := m.Pairwise (fun a b => cmpPath a.1 b.1 = .lt)

theorem get_insert (k : Path) (v : β) (q : Path) : ∀ (m : PathMap β),
    (m.insert k v).get q = if q = k then some v else m.get q := by
  intro m
  induction m with
  | nil => simp [insert, get, cmpPath_eq_iff]
  | cons x m ih =>
    obtain ⟨k', v'⟩ := x
    simp only [insert]
    split
    · simp [get, cmpPath_eq_iff]
    · next h =>
      rw [cmpPath_eq_iff] at h
      subst h
      simp only [get, cmpPath_eq_iff]
      split <;> rfl
    · next h =>
      have hne : k ≠ k' := by
        intro h'; rw [(cmpPath_eq_iff _ _).2 h'] at h; cases h
      simp only [get, cmpPath_eq_iff, ih]
      by_cases hq : q = k'
      · subst hq; simp [Ne.symm hne]
      · simp [hq]

theorem mem_insert {k : Path} {v : β} {x : Path × β} : ∀ {m : PathMap β},
    x ∈ m.insert k v → x = (k, v) ∨ x ∈ m := by
  intro m
  induction m with
  | nil => intro h; simp [insert] at h; exact .inl h
  | cons y m ih =>
    obtain ⟨k', v'⟩ := y
    intro h
    simp only [insert] at h
    split at h
    · grind
    · next h' =>
      rw [cmpPath_eq_iff] at h'
      grind
    · grind

theorem insert_sorted {k : Path} {v : β} : ∀ {m : PathMap β}, m.Sorted → (m.insert k v).Sorted := by
  intro m
  induction m with
  | nil => intro _; simp [insert, Sorted]
  | cons y m ih =>
    obtain ⟨k', v'⟩ := y
    intro h
    have h' := List.pairwise_cons.1 h
    simp only [insert]
    split
    · next hc =>
      refine List.pairwise_cons.2 ⟨?_, h⟩
      intro z hz
      rcases List.mem_cons.1 hz with rfl | hz
      · exact hc
      · exact cmpPath_lt_trans hc (h'.1 z hz)
    · exact List.pairwise_cons.2 ⟨h'.1, h'.2⟩
    · next hc =>
      refine List.pairwise_cons.2 ⟨?_, ih h'.2⟩
      intro z hz
      rcases mem_insert hz with rfl | hz
      · exact cmpPath_gt hc
      · exact h'.1 z hz

/-- Inserting a new key adds one entry. -/
theorem insert_perm {k : Path} {v : β} : ∀ {m : PathMap β}, (∀ x ∈ m, x.1 ≠ k) →
    (m.insert k v).Perm ((k, v) :: m) := by
  intro m
  induction m with
  | nil => intro _; exact .refl _
  | cons y m ih =>
    obtain ⟨k', v'⟩ := y
    intro h
    simp only [insert]
    split
    · exact .refl _
    · next hc =>
      rw [cmpPath_eq_iff] at hc
      exact absurd hc.symm (h (k', v') (by simp))
    · exact ((ih (fun x hx => h x (by simp [hx]))).cons _).trans (.swap _ _ _)

theorem get_of_mem {m : PathMap β} (hs : m.Sorted) {k : Path} {v : β} (h : (k, v) ∈ m) :
    m.get k = some v := by
  induction m with
  | nil => simp at h
  | cons y m ih =>
    obtain ⟨k', v'⟩ := y
    have h' := List.pairwise_cons.1 hs
    simp only [get]
    rcases List.mem_cons.1 h with h | h
    · cases h; rw [if_pos ((cmpPath_eq_iff _ _).2 rfl)]
    · rw [if_neg, ih h'.2 h]
      have := h'.1 _ h
      intro hc
      rw [cmpPath_eq_iff] at hc
      simp only at this
      rw [hc, (cmpPath_eq_iff _ _).2 rfl] at this
      cases this

theorem mem_of_get : ∀ {m : PathMap β} {k : Path} {v : β}, m.get k = some v → (k, v) ∈ m := by
  intro m
  induction m with
  | nil => intro k v h; simp [get] at h
  | cons y m ih =>
    obtain ⟨k', v'⟩ := y
    intro k v h
    simp only [get] at h
    split at h
    · next hc =>
      rw [cmpPath_eq_iff] at hc
      cases h; simp [hc]
    · exact List.mem_cons_of_mem _ (ih h)

theorem Sorted.nodup {m : PathMap β} (hs : m.Sorted) : (m.map Prod.fst).Nodup := by
  rw [List.nodup_iff_pairwise_ne, List.pairwise_map]
  refine hs.imp ?_
  intro a b h hc
  rw [(cmpPath_eq_iff _ _).2 hc] at h
  cases h

end PathMap

end Xdvdfs
