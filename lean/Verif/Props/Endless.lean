import Verif.Props.Reader
import Verif.Proof.Lookup
import Verif.Spec.Endless

/-!
# C10: exactly when listing and lookup do not finish
-/

namespace Xdvdfs.Props

open Xdvdfs Spec

/-- A place from which one can always go on is the start of an endless chain. -/
theorem endless_of_step {α : Type} {H : α → Prop} {r : α → α → Prop} (step : ∀ a, H a → ∃ b, r a b ∧ H b) {a : α}
    (ha : H a) : ∃ f : Nat → α, f 0 = a ∧ ∀ i, r (f i) (f (i + 1)) := by
  let next : {x // H x} → {x // H x} := fun x => ⟨(step x.1 x.2).choose, (step x.1 x.2).choose_spec.2⟩
  let g : Nat → {x // H x} := fun n => Nat.rec ⟨a, ha⟩ (fun _ x => next x) n
  exact ⟨fun n => (g n).1, rfl, fun i => (step (g i).1 (g i).2).choose_spec.1⟩

theorem endless_of_not_acc {α : Type} {r : α → α → Prop} {a : α} (h : ¬ Acc (fun x y => r y x) a) :
    ∃ f : Nat → α, f 0 = a ∧ ∀ i, r (f i) (f (i + 1)) := by
  apply endless_of_step (H := fun x => ¬ Acc (fun x y => r y x) x) ?_ h
  intro a ha
  apply Classical.byContradiction
  intro hn
  apply ha
  constructor
  intro b hb
  apply Classical.byContradiction
  intro hb'
  exact hn ⟨b, hb, hb'⟩

theorem not_acc_of_endless {α : Type} {r : α → α → Prop} {a : α} (h : Acc (fun x y => r y x) a) :
    ∀ f : Nat → α, f 0 = a → ¬ ∀ i, r (f i) (f (i + 1)) := by
  induction h with
  | intro a _ ih =>
    intro f h0 hf
    exact ih (f 1) (h0 ▸ hf 0) (fun n => f (n + 1)) rfl (fun i => hf (i + 1))

section
variable {dev : Dev} {tab : Region}

theorem childOf_iff {o c : Nat} {d : DirEnt} (h : EntryAt dev tab o d) :
    ChildOf dev tab o c ↔ target d.node.left = some c ∨ target d.node.right = some c := by
  unfold target
  constructor
  · rintro ⟨d', h', hc⟩
    have e := h.2.symm.trans h'.2
    cases e
    rcases hc with ⟨h1, rfl⟩ | ⟨h1, rfl⟩
    · exact .inl (if_pos h1)
    · exact .inr (if_pos h1)
  · intro hc
    refine ⟨d, h, ?_⟩
    rcases hc with hc | hc
    · split at hc
      · next h1 => cases hc; exact .inl ⟨h1, rfl⟩
      · cases hc
    · split at hc
      · next h1 => cases hc; exact .inr ⟨h1, rfl⟩
      · cases hc

theorem mem_pushChildren {n : DiskNode} {stack : List Nat} {c : Nat} :
    c ∈ pushChildren n stack ↔ target n.left = some c ∨ target n.right = some c ∨ c ∈ stack := by
  unfold pushChildren target
  simp only
  split <;> split <;> simp [eq_comm, or_comm, or_left_comm, or_assoc]

theorem branch_of_acc {o : Nat} (ha : Acc (fun x y => ChildOf dev tab y x) o)
    (hl : ∀ o, Reachable dev tab o → Legible dev tab o) (hr : Reachable dev tab o) :
    ∃ l, Branch dev tab (some o) l := by
  induction ha with
  | intro o _ ih =>
    obtain ⟨h1, x, hx⟩ := hl o hr
    cases x with
    | none => exact ⟨[], .blank h1 hx⟩
    | some d =>
      have he : EntryAt dev tab o d := ⟨h1, hx⟩
      have side : ∀ l, (∀ c, target l = some c → ChildOf dev tab o c) → ∃ ls, Branch dev tab (target l) ls := by
        intro l hc
        cases ht : target l with
        | none => exact ⟨[], .nothing⟩
        | some c => exact ih c (hc c ht) (.child hr (hc c ht))
      obtain ⟨l, hl'⟩ := side d.node.left (fun c hc => (childOf_iff he).2 (.inl hc))
      obtain ⟨r, hr'⟩ := side d.node.right (fun c hc => (childOf_iff he).2 (.inr hc))
      exact ⟨_, .entry he hl' hr'⟩

/-- Everything below the place can be read, and no chain of links from it is endless. -/
inductive Good (dev : Dev) (tab : Region) : Nat → Prop
  | mk {o} : Legible dev tab o → (∀ c, ChildOf dev tab o c → Good dev tab c) → Good dev tab o

theorem Good.acc {o : Nat} (h : Good dev tab o) : Acc (fun x y => ChildOf dev tab y x) o := by
  induction h with
  | mk _ _ ih => exact ⟨_, fun c hc => ih c hc⟩

theorem Good.reach (h : Good dev tab 0) {o : Nat} (hr : Reachable dev tab o) : Good dev tab o := by
  induction hr with
  | root => exact h
  | child _ hc ih =>
    cases ih with
    | mk _ h2 => exact h2 _ hc

theorem walkLoop_good : ∀ (fuel : Nat) (stack : List Nat) (acc l : List DirEnt),
    walkLoop dev tab fuel stack acc = .ok l → ∀ o ∈ stack, Good dev tab o := by
  intro fuel
  induction fuel with
  | zero =>
    intro stack acc l h o ho
    cases stack with
    | nil => cases ho
    | cons _ _ => cases h
  | succ fuel ih =>
    intro stack acc l h o ho
    cases stack with
    | nil => cases ho
    | cons top stack =>
      unfold walkLoop at h
      obtain ⟨off, h1, h⟩ := Res.bind_eq_ok.1 h
      obtain ⟨x, h2, h⟩ := Res.bind_eq_ok.1 h
      obtain ⟨h3, rfl⟩ := Region.offset_ok h1
      have htop : Legible dev tab top := ⟨h3, x, h2⟩
      cases x with
      | none =>
        rcases List.mem_cons.1 ho with rfl | ho
        · refine ⟨htop, ?_⟩
          rintro c ⟨d, hd, _⟩
          have e := h2.symm.trans hd.2
          cases e
        · exact ih _ _ _ h o ho
      | some d =>
        have rest := ih _ _ _ h
        rcases List.mem_cons.1 ho with rfl | ho
        · refine ⟨htop, fun c hc => rest c ?_⟩
          rw [mem_pushChildren]
          rcases (childOf_iff ⟨h3, h2⟩).1 hc with hc | hc
          · exact .inl hc
          · exact .inr (.inl hc)
        · exact rest o (mem_pushChildren.2 (.inr (.inr ho)))

theorem walkLoop_legible (hl : ∀ o, Reachable dev tab o → Legible dev tab o) : ∀ (fuel : Nat) (stack : List Nat)
    (acc : List DirEnt), (∀ o ∈ stack, Reachable dev tab o) →
    walkLoop dev tab fuel stack acc = .hang ∨ ∃ l, walkLoop dev tab fuel stack acc = .ok l := by
  intro fuel
  induction fuel with
  | zero =>
    intro stack acc _
    cases stack with
    | nil => exact .inr ⟨_, rfl⟩
    | cons _ _ => exact .inl rfl
  | succ fuel ih =>
    intro stack acc hs
    cases stack with
    | nil => exact .inr ⟨_, rfl⟩
    | cons top stack =>
      have ht := hs top (List.mem_cons_self ..)
      obtain ⟨h1, x, hx⟩ := hl top ht
      unfold walkLoop
      rw [Region.offset_of_lt h1, Res.ok_bind, hx, Res.ok_bind]
      cases x with
      | none => exact ih _ _ (fun o ho => hs o (List.mem_cons_of_mem _ ho))
      | some d =>
        apply ih
        intro o ho
        rcases mem_pushChildren.1 ho with h | h | h
        · exact .child ht ((childOf_iff ⟨h1, hx⟩).2 (.inl h))
        · exact .child ht ((childOf_iff ⟨h1, hx⟩).2 (.inr h))
        · exact hs o (List.mem_cons_of_mem _ h)

end

theorem isEmpty_iff {tab : Region} : tab.isEmpty = true ↔ tab.size = 0 := by simp [Region.isEmpty]

/-- C10, exactly: on every device, listing a directory finishes with a listing if and only if the directory is empty, or every
place that links lead to can be read and no chain of links is endless. -/
theorem C10_walk_finishes_iff (dev : Dev) (tab : Region) :
    (∃ fuel l, walkDirentTree dev tab fuel = .ok l) ↔
      (tab.size = 0 ∨ ((∀ o, Reachable dev tab o → Legible dev tab o) ∧ ¬ EndlessLinks dev tab)) := by
  unfold walkDirentTree
  by_cases he : tab.size = 0
  · simp only [isEmpty_iff.2 he, if_true]
    exact ⟨fun _ => .inl he, fun _ => ⟨0, [], rfl⟩⟩
  · have hne : tab.isEmpty = false := Bool.eq_false_iff.2 (fun h => he (isEmpty_iff.1 h))
    simp only [hne, Bool.false_eq_true, if_false]
    constructor
    · rintro ⟨fuel, l, h⟩
      have hg := walkLoop_good _ _ _ _ h 0 (by simp)
      refine .inr ⟨?_, ?_⟩
      · intro o ho
        cases hg.reach ho with
        | mk h1 _ => exact h1
      · rintro ⟨f, h0, hf⟩
        exact not_acc_of_endless hg.acc f h0 hf
    · rintro (h | ⟨h1, h2⟩)
      · exact absurd h he
      · have ha : Acc (fun x y => ChildOf dev tab y x) 0 := by
          apply Classical.byContradiction
          intro hn
          exact h2 (endless_of_not_acc hn)
        obtain ⟨l, hb⟩ := branch_of_acc ha h1 .root
        obtain ⟨n, l', _, _, _, hw⟩ := walkLoop_branch hb
        refine ⟨0 + n, (l'.reverse ++ []).reverse, ?_⟩
        rw [show ([0] : List Nat) = (some 0).toList ++ [] from rfl, hw]
        unfold walkLoop
        rfl

/-- C10, exactly: if every place that links lead to can be read, listing goes on forever if and only if there is an endless
chain of links. -/
theorem C10_walk_hangs_iff {dev : Dev} {tab : Region} (hs : tab.size ≠ 0)
    (hl : ∀ o, Reachable dev tab o → Legible dev tab o) :
    (∀ fuel, walkDirentTree dev tab fuel = .hang) ↔ EndlessLinks dev tab := by
  constructor
  · intro h
    apply Classical.byContradiction
    intro hn
    obtain ⟨fuel, l, hok⟩ := (C10_walk_finishes_iff dev tab).2 (.inr ⟨hl, hn⟩)
    rw [h fuel] at hok
    cases hok
  · intro he fuel
    have key := walkLoop_legible hl fuel [0] [] (by simp [Reachable.root])
    have e : walkDirentTree dev tab fuel = walkLoop dev tab fuel [0] [] := by
      unfold walkDirentTree
      rw [if_neg (fun h => hs (isEmpty_iff.1 h))]
    rw [e]
    rcases key with h | ⟨l, h⟩
    · exact h
    · rcases (C10_walk_finishes_iff dev tab).1 ⟨fuel, l, e.trans h⟩ with h' | ⟨_, h'⟩
      · exact absurd h' hs
      · exact absurd he h'

theorem findLoop_step {dev : Dev} {tab : Region} {name : Str} {o c : Nat} (h : SearchStep dev tab name o c) (fuel : Nat) :
    findLoop dev tab name (fuel + 1) (2048 * tab.sector.toNat + o) =
      findLoop dev tab name fuel (2048 * tab.sector.toNat + c) := by
  obtain ⟨d, hd, hc, h0, hs⟩ := h
  conv => lhs; unfold findLoop
  rw [hd.2]
  rcases hs with ⟨h1, rfl⟩ | ⟨h1, rfl⟩
  · have hz : d.node.left ≠ 0 := by rintro hz; rw [hz] at h0; exact h0 rfl
    simp only [Res.ok_bind, Res.ofOption_some, h1, Res.pure_eq, if_neg hz, Region.offset_of_lt hc]
  · have hz : d.node.right ≠ 0 := by rintro hz; rw [hz] at h0; exact h0 rfl
    simp only [Res.ok_bind, Res.ofOption_some, h1, Res.pure_eq, if_neg hz, Region.offset_of_lt hc]

theorem findLoop_hangs {dev : Dev} (hd : dev.SaneBelow (2 ^ 44)) {tab : Region} {name : Str} {o : Nat}
    (ho : o < tab.size.toNat) (h : ∀ fuel, findLoop dev tab name fuel (2048 * tab.sector.toNat + o) = .hang) :
    ∃ c, SearchStep dev tab name o c ∧ c < tab.size.toNat ∧
      ∀ fuel, findLoop dev tab name fuel (2048 * tab.sector.toNat + c) = .hang := by
  have hlt : 2048 * tab.sector.toNat + o < 2 ^ 43 + 2 ^ 32 := Region.offset_lt (Region.offset_of_lt ho)
  have step : ∃ c, SearchStep dev tab name o c := by
    have h1 := h 1
    unfold findLoop at h1
    cases hr : readDirent dev (2048 * tab.sector.toNat + o) with
    | err e => rw [hr] at h1; cases h1
    | panic => rw [hr] at h1; cases h1
    | hang =>
      rcases readDirent_returns hd hlt with hx
      rw [hr] at hx
      simp [Res.Returns] at hx
    | ok x =>
      rw [hr, Res.ok_bind] at h1
      cases x with
      | none => cases h1
      | some d =>
        simp only [Res.ofOption_some, Res.ok_bind] at h1
        have go : ∀ l : UInt16, (if l = 0 then (Res.err .doesNotExist : Res DirEnt) else do
            let off ← tab.offset (4 * l.toNat)
            findLoop dev tab name 0 off) = .hang → 4 * l.toNat < tab.size.toNat ∧ 4 * l.toNat ≠ 0 := by
          intro l hh
          by_cases hz : l = 0
          · rw [if_pos hz] at hh; cases hh
          · rw [if_neg hz] at hh
            have hne : l.toNat ≠ 0 := fun h => hz (UInt16.toNat_inj.1 h)
            refine ⟨?_, by omega⟩
            apply Classical.byContradiction
            intro hn
            have : tab.offset (4 * l.toNat) = .err .sizeOutOfBounds := by
              unfold Region.offset
              rw [if_pos (by omega)]
            rw [this] at hh
            cases hh
        cases hc : cmpIgnoreCase name d.nameStr with
        | eq => simp only [hc, Res.pure_eq, Res.ok_bind] at h1; cases h1
        | lt =>
          simp only [hc, Res.pure_eq, Res.ok_bind] at h1
          obtain ⟨a, b⟩ := go _ h1
          exact ⟨_, d, ⟨ho, hr⟩, a, b, .inl ⟨hc, rfl⟩⟩
        | gt =>
          simp only [hc, Res.pure_eq, Res.ok_bind] at h1
          obtain ⟨a, b⟩ := go _ h1
          exact ⟨_, d, ⟨ho, hr⟩, a, b, .inr ⟨hc, rfl⟩⟩
  obtain ⟨c, hc⟩ := step
  exact ⟨c, hc, hc.choose_spec.2.1, fun fuel => by rw [← findLoop_step hc]; exact h (fuel + 1)⟩

/-- C10, exactly: on a device whose reads return, a lookup goes on forever if and only if following the links on the side where
the name belongs never comes to an end. -/
theorem C10_find_hangs_iff {dev : Dev} (hd : dev.SaneBelow (2 ^ 44)) (tab : Region) (name : Str) :
    (∀ fuel, findDirent dev tab name fuel = .hang) ↔ EndlessSearch dev tab name := by
  unfold findDirent EndlessSearch
  by_cases he : tab.size = 0
  · simp only [isEmpty_iff.2 he, if_true]
    exact ⟨fun h => absurd (h 0) (by nofun), fun h => absurd he h.1⟩
  · have hne : tab.isEmpty = false := Bool.eq_false_iff.2 (fun h => he (isEmpty_iff.1 h))
    simp only [hne, Bool.false_eq_true, if_false]
    have h0 : 0 < tab.size.toNat := by
      rcases Nat.eq_zero_or_pos tab.size.toNat with h | h
      · exact absurd (UInt32.toNat_inj.1 h) he
      · exact h
    rw [Region.offset_of_lt h0]
    simp only [Res.ok_bind]
    constructor
    · intro h
      refine ⟨he, endless_of_step (H := fun o => o < tab.size.toNat ∧
        ∀ fuel, findLoop dev tab name fuel (2048 * tab.sector.toNat + o) = .hang) ?_ ⟨h0, h⟩⟩
      rintro o ⟨h1, h2⟩
      exact findLoop_hangs hd h1 h2
    · rintro ⟨_, f, hf0, hf⟩ fuel
      have key : ∀ fuel i, findLoop dev tab name fuel (2048 * tab.sector.toNat + f i) = .hang := by
        intro fuel
        induction fuel with
        | zero => intro i; rfl
        | succ fuel ih => intro i; rw [findLoop_step (hf i)]; exact ih (i + 1)
      have := key fuel 0
      rw [hf0] at this
      exact this

/-- On the table with a cycle the links are endless and so is the search for `a`; on the other one they are not. -/
example : EndlessSearch (fileDev cyclicImage) ⟨0, 32⟩ "a".toList ∧
    ¬ EndlessLinks (fileDev twoEntryImage) ⟨0, 32⟩ := by
  refine ⟨(C10_find_hangs_iff (fileDev_sane _ _) _ _).1 C10_find_terminates_false, ?_⟩
  rcases (C10_walk_finishes_iff (fileDev twoEntryImage) ⟨0, 32⟩).1 ⟨2,
      [⟨⟨4, 0, ⟨⟨1, 1⟩, 0x20, 1⟩⟩, [98], 0⟩, ⟨⟨0, 0, ⟨⟨2, 1⟩, 0x20, 1⟩⟩, [97], 16⟩], by decide +kernel⟩ with h | h
  · exact absurd h (by decide)
  · exact h.2

end Xdvdfs.Props
