import Verif.Spec.Lookup
import Verif.Proof.Read
import Verif.Proof.ImgRead

/-! Lemmas about lookups and listings on images made by any tool. -/

namespace Xdvdfs

open Res Spec

/-! ## What is found is listed -/

/-- `d` is stored at table offset `o` or below it. -/
inductive From (dev : Dev) (tab : Region) : Nat → DirEnt → Prop
  | here {o d} : EntryAt dev tab o d → From dev tab o d
  | next {o c d} : ChildOf dev tab o c → From dev tab c d → From dev tab o d

theorem walkLoop_acc {dev : Dev} {tab : Region} : ∀ (fuel : Nat) (stack : List Nat) (acc l : List DirEnt),
    walkLoop dev tab fuel stack acc = .ok l → ∀ d ∈ acc, d ∈ l := by
  intro fuel
  induction fuel with
  | zero =>
    intro stack acc l h d hd
    cases stack with
    | nil => simp only [walkLoop] at h; rw [← Res.ok.inj h]; simpa using hd
    | cons _ _ => simp [walkLoop] at h
  | succ fuel ih =>
    intro stack acc l h d hd
    cases stack with
    | nil => simp only [walkLoop] at h; rw [← Res.ok.inj h]; simpa using hd
    | cons top stack =>
      unfold walkLoop at h
      obtain ⟨off, h1, h⟩ := bind_eq_ok.1 h
      obtain ⟨d?, h2, h⟩ := bind_eq_ok.1 h
      cases d? with
      | none => exact ih _ _ _ h d hd
      | some x => exact ih _ _ _ h d (by simp [hd])

theorem mem_pushChildren {n : DiskNode} {stack : List Nat} {o : Nat} (h : o ∈ stack) : o ∈ pushChildren n stack := by
  unfold pushChildren
  simp only
  split <;> split <;> simp [h]

theorem walkLoop_complete {dev : Dev} {tab : Region} : ∀ (fuel : Nat) (stack : List Nat) (acc l : List DirEnt),
    walkLoop dev tab fuel stack acc = .ok l → ∀ o d, o ∈ stack → From dev tab o d → d ∈ l := by
  intro fuel
  induction fuel with
  | zero =>
    intro stack acc l h o d ho
    cases stack with
    | nil => simp at ho
    | cons _ _ => simp [walkLoop] at h
  | succ fuel ih =>
    intro stack acc l h o d ho hd
    cases stack with
    | nil => simp at ho
    | cons top stack =>
      unfold walkLoop at h
      obtain ⟨off, h1, h⟩ := bind_eq_ok.1 h
      obtain ⟨d?, h2, h⟩ := bind_eq_ok.1 h
      obtain ⟨_, rfl⟩ := Region.offset_ok h1
      rcases List.mem_cons.1 ho with rfl | ho
      · cases hd with
        | here he =>
          rw [he.2] at h2
          cases Res.ok.inj h2
          exact walkLoop_acc _ _ _ _ h d (by simp)
        | next hc hd =>
          obtain ⟨x, hx, hc⟩ := hc
          rw [hx.2] at h2
          cases Res.ok.inj h2
          refine ih _ _ _ h _ d ?_ hd
          rcases hc with ⟨⟨g1, g2⟩, rfl⟩ | ⟨⟨g1, g2⟩, rfl⟩
          · unfold pushChildren; simp only [if_pos (And.intro g1 g2)]; split <;> simp
          · unfold pushChildren; simp only [if_pos (And.intro g1 g2)]; simp
      · cases d? with
        | none => exact ih _ _ _ h o d ho hd
        | some x => exact ih _ _ _ h o d (mem_pushChildren ho) hd

theorem findLoop_from {dev : Dev} {tab : Region} {name : Str} (hs : tab.size.toNat ≤ 262140) : ∀ (fuel o : Nat) (d : DirEnt),
    o < tab.size.toNat → findLoop dev tab name fuel (2048 * tab.sector.toNat + o) = .ok d → From dev tab o d := by
  intro fuel
  induction fuel with
  | zero => intro o d _ h; simp [findLoop] at h
  | succ fuel ih =>
    intro o d ho h
    unfold findLoop at h
    obtain ⟨d?, h1, h⟩ := bind_eq_ok.1 h
    cases d? with
    | none => simp [Res.ofOption] at h
    | some x =>
      simp only [ofOption_some, ok_bind] at h
      have key (l : UInt16) (hl : l = x.node.left ∨ l = x.node.right)
          (h : (if l = 0 then (.err .doesNotExist : Res DirEnt)
            else do let off ← tab.offset (4 * l.toNat); findLoop dev tab name fuel off) = .ok d) : From dev tab o d := by
        split at h
        · cases h
        · rename_i h0
          obtain ⟨off, h2, h⟩ := bind_eq_ok.1 h
          obtain ⟨h3, rfl⟩ := Region.offset_ok h2
          have hf : l ≠ 0xffff := by
            rintro rfl
            have : (0xffff : UInt16).toNat = 65535 := rfl
            omega
          refine .next ⟨x, ⟨ho, h1⟩, ?_⟩ (ih _ _ h3 h)
          rcases hl with rfl | rfl
          · exact .inl ⟨⟨h0, hf⟩, rfl⟩
          · exact .inr ⟨⟨h0, hf⟩, rfl⟩
      cases hc : cmpIgnoreCase name x.nameStr <;> simp only [hc, pure_eq, ok_bind] at h
      · exact key _ (.inl rfl) h
      · cases Res.ok.inj h; exact .here ⟨ho, h1⟩
      · exact key _ (.inr rfl) h

theorem findLoop_name {dev : Dev} {tab : Region} {name : Str} : ∀ (fuel a : Nat) (d : DirEnt),
    findLoop dev tab name fuel a = .ok d → cmpIgnoreCase name d.nameStr = .eq := by
  intro fuel
  induction fuel with
  | zero => intro o d h; simp [findLoop] at h
  | succ fuel ih =>
    intro a d h
    unfold findLoop at h
    obtain ⟨d?, h1, h⟩ := bind_eq_ok.1 h
    cases d? with
    | none => simp [Res.ofOption] at h
    | some x =>
      simp only [ofOption_some, ok_bind] at h
      have key (l : UInt16)
          (h : (if l = 0 then (.err .doesNotExist : Res DirEnt)
            else do let off ← tab.offset (4 * l.toNat); findLoop dev tab name fuel off) = .ok d) :
            cmpIgnoreCase name d.nameStr = .eq := by
        split at h
        · cases h
        · obtain ⟨off, h2, h⟩ := bind_eq_ok.1 h
          exact ih _ _ h
      cases hc : cmpIgnoreCase name x.nameStr <;> simp only [hc, pure_eq, ok_bind] at h
      · exact key _ h
      · cases Res.ok.inj h; exact hc
      · exact key _ h

theorem isEmpty_iff {tab : Region} : tab.isEmpty = true ↔ tab.size = 0 := by simp [Region.isEmpty]

theorem findDirent_name {dev : Dev} {tab : Region} {name : Str} {fuel : Nat} {d : DirEnt}
    (h : findDirent dev tab name fuel = .ok d) : SameName name d.nameStr := by
  unfold findDirent at h
  split at h
  · cases h
  · obtain ⟨off, _, h⟩ := bind_eq_ok.1 h
    exact (cmp_eq_iff _ _).1 (findLoop_name _ _ _ h)

theorem findDirent_listed {dev : Dev} {tab : Region} {name : Str} {fuel wf : Nat} {d : DirEnt} {l : List DirEnt}
    (hs : tab.size.toNat ≤ 262140) (h : findDirent dev tab name fuel = .ok d)
    (hl : walkDirentTree dev tab wf = .ok l) : d ∈ l := by
  unfold findDirent at h
  unfold walkDirentTree at hl
  split at h
  · cases h
  · rename_i he
    rw [if_neg he] at hl
    obtain ⟨off, h1, h⟩ := bind_eq_ok.1 h
    obtain ⟨h2, rfl⟩ := Region.offset_ok h1
    exact walkLoop_complete _ _ _ _ hl 0 d (by simp) (findLoop_from hs _ _ _ h2 h)

/-! ## Search trees -/

theorem findLoop_sorted {dev : Dev} {tab : Region} {name : Str} {p : Option Nat} {l : List DirEnt}
    (hb : Branch dev tab p l) : l.Pairwise (fun a b => cmpIgnoreCase a.nameStr b.nameStr = .lt) →
    ∀ d ∈ l, cmpIgnoreCase name d.nameStr = .eq → ∀ fuel, l.length < fuel → ∀ o, p = some o →
    findLoop dev tab name fuel (2048 * tab.sector.toNat + o) = .ok d := by
  induction hb with
  | nothing => intro _ d hd; simp at hd
  | blank _ _ => intro _ d hd; simp at hd
  | @entry o x l r he hl hr ihl ihr =>
    intro hs d hd hc fuel hf o' ho
    cases ho
    simp only [List.pairwise_append, List.pairwise_cons, List.mem_cons] at hs
    obtain ⟨s1, ⟨s2, s3⟩, s4⟩ := hs
    simp only [List.length_append, List.length_cons] at hf
    obtain ⟨f, rfl⟩ : ∃ f, fuel = f + 1 := ⟨fuel - 1, by omega⟩
    unfold findLoop
    simp only [he.2, ok_bind, ofOption_some]
    have go (k : UInt16) (ds : List DirEnt) (hds : Branch dev tab (target k) ds) (hm : d ∈ ds)
        (ih : ∀ o, target k = some o → findLoop dev tab name f (2048 * tab.sector.toNat + o) = .ok d) :
        (if k = 0 then (.err .doesNotExist : Res DirEnt) else do
          let off ← tab.offset (4 * k.toNat)
          findLoop dev tab name f off) = .ok d := by
      have hk : k ≠ 0 ∧ k ≠ 0xffff := by
        refine Decidable.byContradiction fun hn => ?_
        rw [target, if_neg hn] at hds
        cases hds
        simp at hm
      have ht : target k = some (4 * k.toNat) := if_pos hk
      have hlt : 4 * k.toNat < tab.size.toNat := by
        rw [ht] at hds
        cases hds with
        | blank h _ => exact h
        | entry h _ _ => exact h.1
      rw [if_neg hk.1, Region.offset_of_lt hlt]
      exact ih _ ht
    simp only [List.mem_append, List.mem_cons] at hd
    rcases hd with hd | rfl | hd
    · have h5 : cmpIgnoreCase name x.nameStr = .lt := by
        rw [cmp_congr_left hc]; exact s4 d hd x (.inl rfl)
      simp only [h5, pure_eq, ok_bind]
      exact go _ _ hl hd (ihl s1 d hd hc f (by omega))
    · simp only [hc, pure_eq, ok_bind]
    · have h5 : cmpIgnoreCase name x.nameStr = .gt := by
        rw [cmp_congr_left hc, cmp_swap, s2 d hd]; rfl
      simp only [h5, pure_eq, ok_bind]
      exact go _ _ hr hd (ihr s3 d hd hc f (by omega))

theorem findLoop_absent {dev : Dev} {tab : Region} {name : Str} {p : Option Nat} {l : List DirEnt}
    (hb : Branch dev tab p l) : ZeroLinks l → (∀ d ∈ l, cmpIgnoreCase name d.nameStr ≠ .eq) →
    ∀ fuel, l.length < fuel → ∀ o, p = some o →
    findLoop dev tab name fuel (2048 * tab.sector.toNat + o) = .err .doesNotExist := by
  induction hb with
  | nothing => intro _ _ _ _ o ho; cases ho
  | blank h1 h2 =>
    intro _ _ fuel hf o ho
    cases ho
    obtain ⟨f, rfl⟩ : ∃ f, fuel = f + 1 := ⟨fuel - 1, by simp at hf; omega⟩
    unfold findLoop
    simp only [h2, ok_bind]
    rfl
  | @entry o x l r he hl hr ihl ihr =>
    intro hz hn fuel hf o' ho
    cases ho
    simp only [List.length_append, List.length_cons] at hf
    obtain ⟨f, rfl⟩ : ∃ f, fuel = f + 1 := ⟨fuel - 1, by omega⟩
    unfold findLoop
    simp only [he.2, ok_bind, ofOption_some]
    have go (k : UInt16) (ds : List DirEnt) (hds : Branch dev tab (target k) ds) (hk : k ≠ 0xffff)
        (ih : ∀ o, target k = some o → findLoop dev tab name f (2048 * tab.sector.toNat + o) = .err .doesNotExist) :
        (if k = 0 then (.err .doesNotExist : Res DirEnt) else do
          let off ← tab.offset (4 * k.toNat)
          findLoop dev tab name f off) = .err .doesNotExist := by
      by_cases h0 : k = 0
      · rw [if_pos h0]
      · have ht : target k = some (4 * k.toNat) := if_pos ⟨h0, hk⟩
        have hlt : 4 * k.toNat < tab.size.toNat := by
          rw [ht] at hds
          cases hds with
          | blank h _ => exact h
          | entry h _ _ => exact h.1
        rw [if_neg h0, Region.offset_of_lt hlt]
        exact ih _ ht
    have hx := hz x (by simp)
    have zl : ZeroLinks l := fun d hd => hz d (by simp [hd])
    have zr : ZeroLinks r := fun d hd => hz d (by simp [hd])
    cases hc : cmpIgnoreCase name x.nameStr <;> simp only [pure_eq, ok_bind]
    · exact go _ _ hl hx.1 (ihl zl (fun d hd => hn d (by simp [hd])) f (by omega))
    · exact absurd hc (hn x (by simp))
    · exact go _ _ hr hx.2 (ihr zr (fun d hd => hn d (by simp [hd])) f (by omega))

theorem walkLoop_branch {dev : Dev} {tab : Region} {p : Option Nat} {l : List DirEnt} (hb : Branch dev tab p l) :
    ∃ (n : Nat) (l' : List DirEnt), l'.Perm l ∧ n ≤ 2 * l.length + 1 ∧ (p = none → n = 0) ∧ ∀ fuel stack acc,
      walkLoop dev tab (fuel + n) (p.toList ++ stack) acc = walkLoop dev tab fuel stack (l'.reverse ++ acc) := by
  induction hb with
  | nothing => exact ⟨0, [], .refl _, by simp, by simp, fun _ _ _ => rfl⟩
  | blank h1 h2 =>
    refine ⟨1, [], .refl _, by simp, by simp, fun fuel stack acc => ?_⟩
    simp only [Option.toList, List.cons_append, List.nil_append]
    rw [walkLoop, Region.offset_of_lt h1]
    simp [h2]
  | @entry o d l r he hl hr ihl ihr =>
    obtain ⟨n1, l1, p1, b1, _, e1⟩ := ihl
    obtain ⟨n2, l2, p2, b2, _, e2⟩ := ihr
    refine ⟨n1 + n2 + 1, d :: (l2 ++ l1), ?_, ?_, by simp, ?_⟩
    · refine List.Perm.trans ?_ List.perm_middle.symm
      exact .cons _ (List.perm_append_comm.trans (p1.append p2))
    · simp only [List.length_append, List.length_cons]; omega
    · intro fuel stack acc
      have hp : pushChildren d.node stack =
          (target d.node.right).toList ++ ((target d.node.left).toList ++ stack) := by
        unfold pushChildren target
        by_cases hl : d.node.left ≠ 0 ∧ d.node.left ≠ 0xffff <;>
          by_cases hr : d.node.right ≠ 0 ∧ d.node.right ≠ 0xffff <;> simp only [hl, hr] <;> simp [hl, hr]
      simp only [Option.toList, List.cons_append, List.nil_append]
      rw [show fuel + (n1 + n2 + 1) = ((fuel + n1) + n2) + 1 by omega, walkLoop, Region.offset_of_lt he.1]
      simp only [ok_bind, he.2]
      rw [hp, e2, e1]
      simp

theorem sorted_empty {dev : Dev} {tab : Region} {l : List DirEnt} (h : Sorted dev tab l) (h0 : tab.size = 0) : l = [] := by
  have := h.1
  rw [if_pos h0] at this
  cases this
  rfl

theorem sorted_pos {tab : Region} (h0 : tab.size ≠ 0) : 0 < tab.size.toNat := by
  rcases Nat.eq_zero_or_pos tab.size.toNat with h | h
  · exact absurd (UInt32.toNat_inj.1 (by rw [h]; rfl)) h0
  · exact h

theorem sorted_found {dev : Dev} {tab : Region} {l : List DirEnt} (h : Sorted dev tab l) {d : DirEnt} (hd : d ∈ l)
    {name : Str} (hn : SameName name d.nameStr) {fuel : Nat} (hf : l.length < fuel) :
    findDirent dev tab name fuel = .ok d := by
  by_cases h0 : tab.size = 0
  · rw [sorted_empty h h0] at hd; simp at hd
  · have hb := h.1
    rw [if_neg h0] at hb
    unfold findDirent
    rw [if_neg (by rw [isEmpty_iff]; exact h0), Region.offset_of_lt (sorted_pos h0)]
    exact findLoop_sorted hb h.2 d hd ((cmp_eq_iff _ _).2 hn) fuel hf 0 rfl

theorem sorted_absent {dev : Dev} {tab : Region} {l : List DirEnt} (h : Sorted dev tab l) (hz : ZeroLinks l)
    {name : Str} (hn : ∀ d ∈ l, ¬ SameName name d.nameStr) {fuel : Nat} (hf : l.length < fuel) :
    findDirent dev tab name fuel = .err (if tab.size = 0 then .directoryEmpty else .doesNotExist) := by
  by_cases h0 : tab.size = 0
  · unfold findDirent; rw [if_pos (isEmpty_iff.2 h0), if_pos h0]
  · have hb := h.1
    rw [if_neg h0] at hb ⊢
    unfold findDirent
    rw [if_neg (by rw [isEmpty_iff]; exact h0), Region.offset_of_lt (sorted_pos h0)]
    exact findLoop_absent hb hz (fun d hd hc => hn d hd ((cmp_eq_iff _ _).1 hc)) fuel hf 0 rfl

theorem sorted_listed {dev : Dev} {tab : Region} {l : List DirEnt} (h : Sorted dev tab l) :
    ∃ l', l'.Perm l ∧ ∀ fuel, 2 * l.length < fuel → walkDirentTree dev tab fuel = .ok l' := by
  by_cases h0 : tab.size = 0
  · rw [sorted_empty h h0]
    refine ⟨[], .refl _, fun fuel _ => ?_⟩
    unfold walkDirentTree
    rw [if_pos (isEmpty_iff.2 h0)]
  · have hb := h.1
    rw [if_neg h0] at hb
    obtain ⟨n, l', p, b, _, e⟩ := walkLoop_branch hb
    refine ⟨l', p, fun fuel hf => ?_⟩
    unfold walkDirentTree
    rw [if_neg (by rw [isEmpty_iff]; exact h0)]
    obtain ⟨k, rfl⟩ : ∃ k, fuel = k + n := ⟨fuel - n, by omega⟩
    have := e k [] []
    simp only [Option.toList, List.cons_append, List.nil_append, List.append_nil] at this
    rw [this]
    cases k <;> simp [walkLoop]

/-! ## Paths -/

/-- The directory `x` is visited by the recursive listing that gives `L`. -/
def Visited (dev : Dev) (wf : Nat) (L : List (Str × DirEnt)) (x : Str × Region) : Prop :=
  ∃ fuel stack acc, x ∈ stack ∧ fileTreeLoop dev wf fuel stack acc = .ok L

theorem fileTreeLoop_acc {dev : Dev} {wf : Nat} : ∀ (fuel : Nat) (stack : List (Str × Region))
    (acc L : List (Str × DirEnt)), fileTreeLoop dev wf fuel stack acc = .ok L → ∀ x ∈ acc, x ∈ L := by
  intro fuel
  induction fuel with
  | zero =>
    intro stack acc l h d hd
    cases stack with
    | nil => simp only [fileTreeLoop] at h; rw [← Res.ok.inj h]; simpa using hd
    | cons _ _ => simp [fileTreeLoop] at h
  | succ fuel ih =>
    intro stack acc l h d hd
    cases stack with
    | nil => simp only [fileTreeLoop] at h; rw [← Res.ok.inj h]; simpa using hd
    | cons top stack =>
      obtain ⟨p, t⟩ := top
      unfold fileTreeLoop at h
      obtain ⟨ch, h1, h⟩ := bind_eq_ok.1 h
      exact ih _ _ _ h d (by simp [hd])

theorem visited_step {dev : Dev} {wf : Nat} {L : List (Str × DirEnt)} {p : Str} {tab : Region}
    (h : Visited dev wf L (p, tab)) : ∃ ch, walkDirentTree dev tab wf = .ok ch ∧ (∀ c ∈ ch, (p, c) ∈ L) ∧
      ∀ c ∈ ch, ∀ t, c.node.dirent.direntTable = some t → Visited dev wf L (p ++ '/' :: c.nameStr, t) := by
  obtain ⟨fuel, stack, acc, hx, h⟩ := h
  induction fuel generalizing stack acc with
  | zero =>
    cases stack with
    | nil => simp at hx
    | cons _ _ => simp [fileTreeLoop] at h
  | succ fuel ih =>
    cases stack with
    | nil => simp at hx
    | cons top stack =>
      obtain ⟨q, u⟩ := top
      unfold fileTreeLoop at h
      obtain ⟨ch, h1, h5⟩ := bind_eq_ok.1 h
      clear h
      rcases List.mem_cons.1 hx with hx | hx
      · obtain ⟨rfl, rfl⟩ := Prod.mk.inj hx
        refine ⟨ch, h1, ?_, ?_⟩
        · intro c hc
          exact fileTreeLoop_acc _ _ _ _ h5 _ (by simp [hc])
        · intro c hc t ht
          refine ⟨_, _, _, ?_, h5⟩
          simp only [List.mem_append, List.mem_reverse, subdirsOf, List.mem_filterMap]
          exact .inl ⟨c, hc, by simp [ht]⟩
      · exact ih _ _ (by simp [hx]) h5

/-- An entry below a directory, with the path to it. -/
inductive Below (dev : Dev) (wf : Nat) : Region → Path → DirEnt → Prop
  | here {tab ch c} : walkDirentTree dev tab wf = .ok ch → c ∈ ch → Below dev wf tab [] c
  | sub {tab ch c t p d} : walkDirentTree dev tab wf = .ok ch → c ∈ ch → c.node.dirent.direntTable = some t →
      Below dev wf t p d → Below dev wf tab (c.nameStr :: p) d

theorem fileTreeLoop_below {dev : Dev} {wf : Nat} : ∀ (fuel : Nat) (stack : List (Str × Region))
    (acc L : List (Str × DirEnt)), fileTreeLoop dev wf fuel stack acc = .ok L → ∀ x ∈ L, x ∈ acc ∨
      ∃ p t q, (p, t) ∈ stack ∧ x.1 = p ++ slashPath q ∧ Below dev wf t q x.2 := by
  intro fuel
  induction fuel with
  | zero =>
    intro stack acc L h x hx
    cases stack with
    | nil => simp only [fileTreeLoop] at h; rw [← Res.ok.inj h] at hx; exact .inl (by simpa using hx)
    | cons _ _ => simp [fileTreeLoop] at h
  | succ fuel ih =>
    intro stack acc L h x hx
    cases stack with
    | nil => simp only [fileTreeLoop] at h; rw [← Res.ok.inj h] at hx; exact .inl (by simpa using hx)
    | cons top stack =>
      obtain ⟨p, t⟩ := top
      unfold fileTreeLoop at h
      obtain ⟨ch, h1, h⟩ := bind_eq_ok.1 h
      rcases ih _ _ _ h x hx with hx | ⟨p', t', q, hm, h2, h3⟩
      · simp only [List.mem_append, List.mem_reverse, List.mem_map] at hx
        rcases hx with ⟨c, hc, rfl⟩ | hx
        · exact .inr ⟨p, t, [], by simp, by simp [slashPath], .here h1 hc⟩
        · exact .inl hx
      · simp only [List.mem_append, List.mem_reverse, subdirsOf, List.mem_filterMap] at hm
        rcases hm with ⟨c, hc, hm⟩ | hm
        · cases ht : c.node.dirent.direntTable with
          | none => rw [ht] at hm; simp at hm
          | some t'' =>
            rw [ht] at hm
            simp only [Option.map_some, Option.some.injEq, Prod.mk.injEq] at hm
            obtain ⟨rfl, rfl⟩ := hm
            refine .inr ⟨p, t, c.nameStr :: q, by simp, ?_, .sub h1 hc ht h3⟩
            rw [h2]; simp [slashPath]
        · exact .inr ⟨p', t', q, by simp [hm], h2, h3⟩

theorem walkSegments_listed {dev : Dev} {wf : Nat} {L : List (Str × DirEnt)}
    (hL : ∀ x ∈ L, ∀ t, x.2.node.dirent.direntTable = some t → t.size.toNat ≤ 262140) {fuel : Nat} {d : DirEnt} :
    ∀ (q : Path) (tab : Region) (P : Str), tab.size.toNat ≤ 262140 → Visited dev wf L (P, tab) →
      walkSegments dev fuel tab q = .ok d → ∃ p, SamePath q (p ++ [d.nameStr]) ∧ (P ++ slashPath p, d) ∈ L := by
  intro q
  induction q with
  | nil => intro _ _ _ _ h; simp [walkSegments] at h
  | cons s q ih =>
    intro tab P hs hv h
    unfold walkSegments at h
    obtain ⟨c, h1, h⟩ := bind_eq_ok.1 h
    obtain ⟨ch, h2, h3, h4⟩ := visited_step hv
    have hc := findDirent_listed hs h1 h2
    have hn := findDirent_name h1
    split at h
    · rename_i hq
      obtain rfl := Res.ok.inj h
      refine ⟨[], ?_, by simpa [slashPath] using h3 c hc⟩
      rw [hq, List.nil_append, samePath_cons]
      exact ⟨hn, rfl⟩
    · obtain ⟨t, ht, h⟩ := bind_eq_ok.1 h
      cases hdt : c.node.dirent.direntTable with
      | none => rw [hdt] at ht; cases ht
      | some t' =>
        rw [hdt] at ht
        cases Res.ok.inj ht
        obtain ⟨p, e1, e2⟩ := ih t _ (hL _ (h3 c hc) t hdt) (h4 c hc t hdt) h
        refine ⟨c.nameStr :: p, ?_, ?_⟩
        · rw [List.cons_append, samePath_cons]; exact ⟨hn, e1⟩
        · simpa [slashPath] using e2

theorem below_found {dev : Dev} {wf : Nat} {L : List (Str × DirEnt)}
    (hL : ∀ x ∈ L, ∀ t, x.2.node.dirent.direntTable = some t → ∃ l, Sorted dev t l) {tab : Region} {p : Path} {d : DirEnt}
    (hb : Below dev wf tab p d) : ∀ (P : Str), (∃ l, Sorted dev tab l) → Visited dev wf L (P, tab) →
      ∀ q, SamePath q (p ++ [d.nameStr]) → ∃ n, ∀ fuel, n ≤ fuel → walkSegments dev fuel tab q = .ok d := by
  have perm_of {tab : Region} {l ch : List DirEnt} (hs : Sorted dev tab l) (hw : walkDirentTree dev tab wf = .ok ch) :
      ch.Perm l := by
    obtain ⟨l', p, e⟩ := sorted_listed hs
    have h1 := walkDirentTree_mono (by rw [hw]; simp) (max wf (2 * l.length + 1)) (by omega)
    rw [e _ (by omega), hw] at h1
    cases Res.ok.inj h1
    exact p
  induction hb with
  | @here tab ch c hw hc =>
    intro P ⟨l, hs⟩ hv q hq
    have hq' : ∃ s, q = [s] := by
      have : q.length = 1 := by have := congrArg List.length hq; simpa using this
      match q, this with
      | [s], _ => exact ⟨s, rfl⟩
    obtain ⟨s, rfl⟩ := hq'
    rw [List.nil_append, samePath_cons] at hq
    refine ⟨l.length + 1, fun fuel hf => ?_⟩
    unfold walkSegments
    rw [sorted_found hs ((perm_of hs hw).mem_iff.1 hc) hq.1 (by omega)]
    rfl
  | @sub tab ch c t p d hw hc ht hb ih =>
    intro P ⟨l, hs⟩ hv q hq
    obtain ⟨ch', hw', h3, h4⟩ := visited_step hv
    rw [hw] at hw'
    cases Res.ok.inj hw'
    cases q with
    | nil => simp [SamePath] at hq
    | cons s q =>
      rw [List.cons_append, samePath_cons] at hq
      obtain ⟨n, hn⟩ := ih _ (hL _ (h3 c hc) t ht) (h4 c hc t ht) q hq.2
      refine ⟨max n (l.length + 1), fun fuel hf => ?_⟩
      unfold walkSegments
      rw [sorted_found hs ((perm_of hs hw).mem_iff.1 hc) hq.1 (by omega)]
      have : q ≠ [] := by
        rintro rfl
        have := congrArg List.length hq.2
        simp at this
      simp only [ok_bind, if_neg this, ht, ofOption_some]
      exact hn fuel (by omega)

theorem below_plain {dev : Dev} {wf : Nat} {L : List (Str × DirEnt)}
    (hL : ∀ x ∈ L, x.2.nameStr ≠ [] ∧ '/' ∉ x.2.nameStr) {tab : Region} {p : Path} {d : DirEnt}
    (hb : Below dev wf tab p d) : ∀ (P : Str), Visited dev wf L (P, tab) → PlainPath p := by
  induction hb with
  | here hw hc => intro P _ s hs; simp at hs
  | @sub tab ch c t p d hw hc ht hb ih =>
    intro P hv
    obtain ⟨ch', hw', h3, h4⟩ := visited_step hv
    rw [hw] at hw'
    cases Res.ok.inj hw'
    intro s hs
    rcases List.mem_cons.1 hs with rfl | hs
    · exact hL _ (h3 c hc)
    · exact ih _ (h4 c hc t ht) s hs

theorem slashPath_plain_inj {p q : Path} (hp : PlainPath p) (hq : PlainPath q) (h : slashPath p = slashPath q) : p = q := by
  have e {p : Path} (hp : PlainPath p) : splitSlash (slashPath p) = [] :: p := splitSlash_path p [] (by simp) hp
  have := e hp
  rw [h, e hq] at this
  exact (List.cons.inj this).2.symm

theorem asciiUpper_slash {c : Char} (h : asciiUpper c = '/') : c = '/' := by
  have h1 := upperNat_eq c
  rw [h] at h1
  have e : ('/' : Char).toNat = 47 := rfl
  rw [e] at h1
  unfold upperNat at h1
  split at h1
  · omega
  · exact Char.toNat_inj.1 h1

theorem same_plain {p q : Path} (h : SamePath q p) (hq : PlainPath q) : PlainPath p := by
  induction p generalizing q with
  | nil => intro s hs; simp at hs
  | cons a p ih =>
    cases q with
    | nil => simp [SamePath] at h
    | cons b q =>
      rw [samePath_cons] at h
      have hb := hq b (by simp)
      intro s hs
      rcases List.mem_cons.1 hs with rfl | hs
      · have hl : upper b = upper s := h.1
        constructor
        · rintro rfl
          have := congrArg List.length hl
          simp [upper] at this
          exact hb.1 this
        · intro hm
          have : '/' ∈ upper b := by
            rw [hl, upper, List.mem_map]; exact ⟨'/', hm, by decide⟩
          rw [upper, List.mem_map] at this
          obtain ⟨c, hc, e⟩ := this
          rw [asciiUpper_slash e] at hc
          exact hb.2 hc
      · exact ih h.2 (fun x hx => hq x (by simp [hx])) s hs

theorem walkSegments_error {dev : Dev} {wf : Nat} {L : List (Str × DirEnt)}
    (hL : ∀ x ∈ L, ∀ t, x.2.node.dirent.direntTable = some t → ∃ l, Sorted dev t l ∧ ZeroLinks l) :
    ∀ (q : Path) (tab : Region) (P : Str), q ≠ [] → (∃ l, Sorted dev tab l ∧ ZeroLinks l) → Visited dev wf L (P, tab) →
      ∃ n, ∀ fuel, n ≤ fuel → (∃ d, walkSegments dev fuel tab q = .ok d) ∨
        walkSegments dev fuel tab q = .err .doesNotExist ∨ walkSegments dev fuel tab q = .err .directoryEmpty ∨
        walkSegments dev fuel tab q = .err .isNotDirectory := by
  have perm_of {tab : Region} {l ch : List DirEnt} (hs : Sorted dev tab l) (hw : walkDirentTree dev tab wf = .ok ch) :
      ch.Perm l := by
    obtain ⟨l', p, e⟩ := sorted_listed hs
    have h1 := walkDirentTree_mono (by rw [hw]; simp) (max wf (2 * l.length + 1)) (by omega)
    rw [e _ (by omega), hw] at h1
    cases Res.ok.inj h1
    exact p
  intro q
  induction q with
  | nil => intro _ _ h; exact absurd rfl h
  | cons s q ih =>
    intro tab P _ ⟨l, hs, hz⟩ hv
    obtain ⟨ch, h2, h3, h4⟩ := visited_step hv
    by_cases hm : ∃ c ∈ l, SameName s c.nameStr
    · obtain ⟨c, hc, hn⟩ := hm
      have hc' := (perm_of hs h2).mem_iff.2 hc
      by_cases hq : q = []
      · refine ⟨l.length + 1, fun fuel hf => .inl ⟨c, ?_⟩⟩
        unfold walkSegments
        rw [sorted_found hs hc hn (by omega)]
        simp [hq]
      · cases ht : c.node.dirent.direntTable with
        | none =>
          refine ⟨l.length + 1, fun fuel hf => .inr (.inr (.inr ?_))⟩
          unfold walkSegments
          rw [sorted_found hs hc hn (by omega)]
          simp [hq, ht, Res.ofOption]
        | some t =>
          obtain ⟨n, hn'⟩ := ih t _ hq (hL _ (h3 c hc') t ht) (h4 c hc' t ht)
          refine ⟨max n (l.length + 1), fun fuel hf => ?_⟩
          unfold walkSegments
          rw [sorted_found hs hc hn (by omega)]
          simp only [ok_bind, if_neg hq, ht, ofOption_some]
          exact hn' fuel (by omega)
    · refine ⟨l.length + 1, fun fuel hf => .inr ?_⟩
      unfold walkSegments
      rw [sorted_absent hs hz (fun d hd hn => hm ⟨d, hd, hn⟩) (by omega)]
      split <;> simp

end Xdvdfs
