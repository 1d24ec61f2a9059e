import Verif.Spec.Sector
import Verif.Proof.TableMain

/-! # C26: sector allocation -/

namespace Xdvdfs.Props

open Spec

theorem allocSeqFrom_ok : ∀ {ns : List Nat} {next e : Nat} {ss : List Nat},
    allocSeqFrom next ns = .ok (ss, e) → ss.length = ns.length ∧
      e = next + (ns.map sectorsFor).sum ∧ (ns ≠ [] → e < 2 ^ 32) ∧
      ∀ (i s : Nat), ss[i]? = some s → s = next + ((ns.take i).map sectorsFor).sum := by
  intro ns
  induction ns with
  | nil => intro next e ss h; simp only [allocSeqFrom] at h; cases h; simp
  | cons n ns ih =>
    intro next e ss h
    simp only [allocSeqFrom, Res.bind_eq_ok] at h
    obtain ⟨⟨s, n1⟩, h1, ⟨ss', n2⟩, h2, h3⟩ := h
    cases h3
    obtain ⟨a1, a2, a3⟩ := allocate_eq h1
    rw [secs_eq_sectorsFor] at a2
    obtain ⟨b1, b2, b3, b4⟩ := ih h2
    subst a1 a2
    refine ⟨by simp [b1], by simp [b2]; omega, ?_, ?_⟩
    · intro _
      by_cases hn : ns = []
      · subst hn; simp at b2; omega
      · exact b3 hn
    · intro i t ht
      cases i with
      | zero => simp at ht; simp [ht]
      | succ i =>
        simp only [List.getElem?_cons_succ] at ht
        have := b4 i t ht
        simp only [List.take_succ_cons, List.map_cons, List.sum_cons]; omega

theorem allocSeqFrom_panic : ∀ {ns : List Nat} {next : Nat},
    (∃ r, allocSeqFrom next ns = .ok r) ∨ allocSeqFrom next ns = .panic := by
  intro ns
  induction ns with
  | nil => intro next; exact .inl ⟨_, rfl⟩
  | cons n ns ih =>
    intro next
    simp only [allocSeqFrom, allocate, requiredSectors]
    split
    · split
      · generalize n / sectorSize + (if n % sectorSize > 0 then 1 else 0) = q
        by_cases h1 : q < 2 ^ 32
        · rw [if_pos h1]
          simp only [Res.ok_bind]
          by_cases h2 : next + q < 2 ^ 32
          · rw [if_pos h2]
            simp only [Res.pure_eq, Res.ok_bind]
            rcases ih (next := next + q) with ⟨r, hr⟩ | hr
            · left; rw [hr]; exact ⟨_, rfl⟩
            · right; rw [hr]; rfl
          · rw [if_neg h2]; exact .inr rfl
        · rw [if_neg h1]; exact .inr rfl
      · exact .inr rfl
    · simp only [Res.ok_bind]
      by_cases h2 : next + 1 < 2 ^ 32
      · rw [if_pos h2]
        simp only [Res.pure_eq, Res.ok_bind]
        rcases ih (next := next + 1) with ⟨r, hr⟩ | hr
        · left; rw [hr]; exact ⟨_, rfl⟩
        · right; rw [hr]; rfl
      · rw [if_neg h2]; exact .inr rfl

theorem allocSeqFrom_total : ∀ {ns : List Nat} {next : Nat}, next + (ns.map sectorsFor).sum < 2 ^ 32 →
    ∃ r, allocSeqFrom next ns = .ok r := by
  intro ns
  induction ns with
  | nil => intro next _; exact ⟨_, rfl⟩
  | cons n ns ih =>
    intro next h
    simp only [List.map_cons, List.sum_cons] at h
    have := allocate_ok (next := next) (bytes := n) (by rw [secs_eq_sectorsFor]; omega)
    simp only [allocSeqFrom, this, Res.ok_bind, secs_eq_sectorsFor]
    obtain ⟨r, hr⟩ := ih (next := next + sectorsFor n) (by omega)
    rw [hr]; exact ⟨_, rfl⟩

/-- C26.  Successive allocations from a new allocator: the first starts at sector 33, each next one
starts right after the sectors of the previous one, every allocation has at least one sector and
room for the requested bytes, all of it below sector `2^32`. -/
theorem C26_allocations_adjacent (ns ss : List Nat) (e : Nat) (h : allocSeq ns = .ok (ss, e)) :
    ss.length = ns.length ∧
    (∀ s, ss[0]? = some s → s = 33) ∧
    (∀ (i s s' n : Nat), ss[i]? = some s → ss[i + 1]? = some s' → ns[i]? = some n →
      s' = s + sectorsFor n) ∧
    (∀ (i s n : Nat), ss[i]? = some s → ns[i]? = some n →
      33 ≤ s ∧ n ≤ 2048 * sectorsFor n ∧ 1 ≤ sectorsFor n ∧ s + sectorsFor n ≤ e ∧ e < 2 ^ 32) := by
  obtain ⟨h1, h2, h3, h4⟩ := allocSeqFrom_ok h
  have hi : allocInit = 33 := rfl
  rw [hi] at h2 h4
  refine ⟨h1, ?_, ?_, ?_⟩
  · intro s hs; have := h4 0 s hs; simpa using this
  · intro i s s' n hs hs' hn
    have e1 := h4 i s hs
    have e2 := h4 (i + 1) s' hs'
    rw [List.take_add_one, hn] at e2
    simp only [Option.toList_some, List.map_append, List.map_cons, List.map_nil, List.sum_append,
      List.sum_cons, List.sum_nil] at e2
    omega
  · intro i s n hs hn
    have e1 := h4 i s hs
    have hlt : i < ns.length := by
      rcases Nat.lt_or_ge i ns.length with h | h
      · exact h
      · rw [List.getElem?_eq_none h] at hn; cases hn
    have e3 := h3 (by intro h; rw [h] at hlt; simp at hlt)
    have hsum : ((ns.take i).map sectorsFor).sum + sectorsFor n ≤ (ns.map sectorsFor).sum := by
      have : ns.map sectorsFor = (ns.take i).map sectorsFor ++ (ns.drop i).map sectorsFor := by
        rw [← List.map_append, List.take_append_drop]
      rw [this, List.sum_append]
      have hd : ns.drop i = n :: ns.drop (i + 1) := by
        rw [List.drop_eq_getElem_cons hlt]
        rw [List.getElem?_eq_getElem hlt] at hn
        rw [Option.some.inj hn]
      rw [hd]; simp
    refine ⟨by omega, ?_, ?_, by omega, e3⟩ <;> unfold sectorsFor <;> omega

/-- C26.  The byte ranges of two different allocations are disjoint, they share no sector, and none
overlaps the volume descriptor in sector 32. -/
theorem C26_allocations_disjoint (ns ss : List Nat) (e : Nat) (h : allocSeq ns = .ok (ss, e))
    (i j si sj ni : Nat) (hij : i < j) (hi : ss[i]? = some si) (hj : ss[j]? = some sj)
    (hn : ns[i]? = some ni) :
    32 < si ∧ si + sectorsFor ni ≤ sj ∧ 2048 * si + ni ≤ 2048 * sj ∧ si < sj := by
  obtain ⟨h1, h2, h3, h4⟩ := allocSeqFrom_ok h
  have hi33 : allocInit = 33 := rfl
  rw [hi33] at h2 h4
  have e1 := h4 i si hi
  have e2 := h4 j sj hj
  have hlt : i < ns.length := by
    rcases Nat.lt_or_ge i ns.length with h | h
    · exact h
    · rw [List.getElem?_eq_none h] at hn; cases hn
  have hsum : ((ns.take i).map sectorsFor).sum + sectorsFor ni ≤ ((ns.take j).map sectorsFor).sum := by
    have hd : ns.take j = ns.take i ++ ni :: (ns.take j).drop (i + 1) := by
      have a1 : ns.take i = (ns.take j).take i := by rw [List.take_take]; congr 1; omega
      have hlt' : i < (ns.take j).length := by simp; omega
      have a2 : (ns.take j).drop i = ni :: (ns.take j).drop (i + 1) := by
        rw [List.drop_eq_getElem_cons hlt']
        rw [List.getElem?_eq_getElem hlt] at hn
        rw [List.getElem_take, Option.some.inj hn]
      rw [a1, ← a2, List.take_append_drop]
    rw [hd]; simp
  have hle : ni ≤ 2048 * sectorsFor ni := by unfold sectorsFor; omega
  have hone : 1 ≤ sectorsFor ni := by unfold sectorsFor; omega
  omega

/-- C26.  Allocation succeeds exactly as long as sector numbers fit in 32 bits, and panics
otherwise. -/
theorem C26_allocation_succeeds_iff (ns : List Nat) :
    ((∃ r, allocSeq ns = .ok r) ↔ 33 + (ns.map sectorsFor).sum < 2 ^ 32) ∧
    (¬ 33 + (ns.map sectorsFor).sum < 2 ^ 32 → allocSeq ns = .panic) := by
  have hi : allocInit = 33 := rfl
  have key : (∃ r, allocSeq ns = .ok r) → 33 + (ns.map sectorsFor).sum < 2 ^ 32 := by
    rintro ⟨⟨ss, e⟩, h⟩
    obtain ⟨h1, h2, h3, h4⟩ := allocSeqFrom_ok h
    rw [hi] at h2
    by_cases hn : ns = []
    · subst hn; simp
    · have := h3 hn; omega
  refine ⟨⟨key, fun h => allocSeqFrom_total (by rw [hi]; exact h)⟩, ?_⟩
  intro h
  rcases allocSeqFrom_panic (ns := ns) (next := allocInit) with hr | hr
  · exact absurd (key hr) h
  · exact hr

/-- Allocations of 0, 2048, 2049 and 5000 bytes. -/
example : allocSeq [0, 2048, 2049, 5000] = .ok ([33, 34, 35, 37], 40) := by decide +kernel

/-- Near the end of the sector range the last allocation panics. -/
example : allocSeq [8796092952576, 1] = .panic := by decide +kernel

end Xdvdfs.Props
