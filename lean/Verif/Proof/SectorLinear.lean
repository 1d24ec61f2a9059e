import Verif.Model.SectorLinear
import Verif.Proof.PackEnd

/-!
# Packing into a sector map
-/

namespace Xdvdfs

open Spec Props

/-! ## The map -/

def SecMap.Sorted (m : SecMap) : Prop := m.Pairwise (fun a b => a.1 < b.1)

theorem SecMap.get_iff {m : SecMap} (h : m.Sorted) (k : Nat) (b : Block) :
    m.get k = some b ↔ (k, b) ∈ m := by
  induction m with
  | nil => simp [SecMap.get]
  | cons x m ih =>
    obtain ⟨k', b'⟩ := x
    have h' := List.pairwise_cons.1 h
    simp only [SecMap.get]
    split
    · next he =>
      subst he
      constructor
      · intro hb; cases hb; exact List.mem_cons_self
      · intro hm
        rcases List.mem_cons.1 hm with hm | hm
        · cases hm; rfl
        · have := h'.1 _ hm; simp at this
    · next he =>
      rw [ih h'.2]
      constructor
      · intro hm; exact List.mem_cons_of_mem _ hm
      · intro hm
        rcases List.mem_cons.1 hm with hm | hm
        · cases hm; exact absurd rfl he
        · exact hm

theorem SecMap.get_none {m : SecMap} (h : m.Sorted) (k : Nat) :
    m.get k = none ↔ ∀ b, (k, b) ∉ m := by
  constructor
  · intro hn b hb
    rw [(SecMap.get_iff h k b).2 hb] at hn; cases hn
  · intro hn
    cases hg : m.get k with
    | none => rfl
    | some b => exact absurd ((SecMap.get_iff h k b).1 hg) (hn b)

theorem SecMap.mem_insert {m : SecMap} (h : m.Sorted) {k : Nat} {b : Block} (hn : ∀ b, (k, b) ∉ m) :
    (m.insert k b).Sorted ∧ ∀ x, x ∈ m.insert k b ↔ x = (k, b) ∨ x ∈ m := by
  induction m with
  | nil => simp [SecMap.insert, SecMap.Sorted]
  | cons y m ih =>
    obtain ⟨k', b'⟩ := y
    have h' := List.pairwise_cons.1 h
    obtain ⟨i1, i2⟩ := ih h'.2 (fun b hb => hn b (List.mem_cons_of_mem _ hb))
    simp only [SecMap.insert]
    split
    · next hk =>
      refine ⟨List.pairwise_cons.2 ⟨?_, h⟩, fun x => List.mem_cons⟩
      intro z hz
      rcases List.mem_cons.1 hz with rfl | hz
      · exact hk
      · have := h'.1 z hz; simp only at this ⊢; omega
    · split
      · next he => subst he; exact absurd List.mem_cons_self (hn b')
      · next h1 h2 =>
        refine ⟨List.pairwise_cons.2 ⟨?_, i1⟩, ?_⟩
        · intro z hz
          rcases (i2 z).1 hz with rfl | hz
          · simp only; omega
          · exact h'.1 z hz
        · intro x
          rw [List.mem_cons, i2, List.mem_cons]
          constructor
          · rintro (h | h | h) <;> simp [h]
          · rintro (h | h | h) <;> simp [h]

theorem SecMap.put_ok {m : SecMap} (h : m.Sorted) {k : Nat} {b : Block} (hn : ∀ b, (k, b) ∉ m) :
    m.put k b = (.ok (), m.insert k b) := by
  unfold SecMap.put
  rw [(SecMap.get_none h k).2 hn]
  rfl

/-- The last entry has the greatest key. -/
theorem SecMap.linLen_spec {m : SecMap} (h : m.Sorted) :
    (m = [] ∧ linLen m = 0) ∨ ∃ k b, (k, b) ∈ m ∧ linLen m = k * 2048 + 2048 ∧ ∀ x ∈ m, x.1 ≤ k := by
  rcases List.eq_nil_or_concat m with rfl | ⟨m', ⟨k, b⟩, rfl⟩
  · exact .inl ⟨rfl, rfl⟩
  · right
    rw [List.concat_eq_append] at h ⊢
    refine ⟨k, b, by simp, by simp [linLen], ?_⟩
    intro x hx
    rcases List.mem_append.1 hx with hx | hx
    · have := (List.pairwise_append.1 h).2.2 x hx (k, b) (by simp)
      simp only at this; omega
    · simp at hx; subst hx; exact Nat.le_refl _

/-! ## Operations -/

/-- Operation `o` puts block `b` into sector `k`. -/
def OpBlock : Op → Nat → Block → Prop
  | .report _, _, _ => False
  | .write off d, k, b => ∃ i, 2048 * i < d.length ∧ k = off / 2048 + i ∧
      b = .raw (padSector (slice d (2048 * i) 2048))
  | .copy p out n, k, b => ∃ i, 2048 * i < n ∧ k = out / 2048 + i ∧ b = .file p i

/-- Two operations touch no common sector. -/
def OpDisj (o o' : Op) : Prop := ∀ k b b', OpBlock o k b → ¬ OpBlock o' k b'

def OpAligned : Op → Prop
  | .report _ => True
  | .write off _ => off % 2048 = 0
  | .copy _ out _ => out % 2048 = 0

theorem linWriteLoop_spec : ∀ (fuel s : Nat) (d : Bytes) (m : SecMap), d.length ≤ fuel → m.Sorted →
    (∀ i b, 2048 * i < d.length → (s + i, b) ∉ m) →
    ∃ m', linWriteLoop fuel s d m = (.ok (), m') ∧ m'.Sorted ∧
      ∀ k b, (k, b) ∈ m' ↔ (k, b) ∈ m ∨ ∃ i, 2048 * i < d.length ∧ k = s + i ∧
        b = .raw (padSector (slice d (2048 * i) 2048)) := by
  intro fuel
  induction fuel with
  | zero =>
    intro s d m hl hs _
    have hd : d = [] := List.length_eq_zero_iff.1 (by omega)
    subst hd
    exact ⟨m, rfl, hs, by simp⟩
  | succ fuel ih =>
    intro s d m hl hs hn
    simp only [linWriteLoop]
    split
    · next hd => subst hd; exact ⟨m, rfl, hs, by simp⟩
    · next hd =>
      have hpos : 0 < d.length := List.length_pos_iff.2 hd
      have hn0 : ∀ b, (s, b) ∉ m := fun b => hn 0 b (by omega)
      rw [SecMap.put_ok hs hn0]
      obtain ⟨i1, i2⟩ := SecMap.mem_insert hs (b := .raw (padSector (d.take 2048))) hn0
      obtain ⟨m', e1, e2, e3⟩ := ih (s + 1) (d.drop 2048) _ (by simp; omega) i1 (by
        intro i b hi hm
        rw [List.length_drop] at hi
        rcases (i2 _).1 hm with h | h
        · have := congrArg Prod.fst h; simp only at this; omega
        · exact hn (i + 1) b (by omega) (by rwa [Nat.add_comm i 1, ← Nat.add_assoc]))
      refine ⟨m', e1, e2, ?_⟩
      intro k b
      rw [e3, i2]
      have hsl : ∀ i, slice (d.drop 2048) (2048 * i) 2048 = slice d (2048 * (i + 1)) 2048 := by
        intro i
        simp only [slice, List.drop_drop]
        congr 2; omega
      constructor
      · rintro ((h | h) | ⟨i, h1, h2, h3⟩)
        · cases h
          exact .inr ⟨0, by omega, rfl, by simp [slice]⟩
        · exact .inl h
        · rw [List.length_drop] at h1
          exact .inr ⟨i + 1, by omega, by omega, by rw [h3, hsl]⟩
      · rintro (h | ⟨i, h1, h2, h3⟩)
        · exact .inl (.inr h)
        · cases i with
          | zero => left; left; rw [h2, h3]; simp [slice]
          | succ i =>
            right
            refine ⟨i, by rw [List.length_drop]; omega, by omega, by rw [h3, hsl]⟩

theorem linCopyLoop_spec (p : Path) (s : Nat) : ∀ (n i : Nat) (m : SecMap), m.Sorted →
    (∀ j b, i ≤ j → j < i + n → (s + j, b) ∉ m) →
    ∃ m', linCopyLoop p s n i m = (.ok (), m') ∧ m'.Sorted ∧
      ∀ k b, (k, b) ∈ m' ↔ (k, b) ∈ m ∨ ∃ j, i ≤ j ∧ j < i + n ∧ k = s + j ∧ b = .file p j := by
  intro n
  induction n with
  | zero =>
    intro i m hs _
    exact ⟨m, rfl, hs, by intro k b; constructor; exact .inl; rintro (h | ⟨j, h1, h2, _⟩); exact h; omega⟩
  | succ n ih =>
    intro i m hs hn
    simp only [linCopyLoop]
    have hn0 : ∀ b, (s + i, b) ∉ m := fun b => hn i b (Nat.le_refl _) (by omega)
    rw [SecMap.put_ok hs hn0]
    obtain ⟨i1, i2⟩ := SecMap.mem_insert hs (b := .file p i) hn0
    obtain ⟨m', e1, e2, e3⟩ := ih (i + 1) _ i1 (by
      intro j b h1 h2 hm
      rcases (i2 _).1 hm with h | h
      · have := congrArg Prod.fst h; simp only at this; omega
      · exact hn j b (by omega) (by omega) h)
    refine ⟨m', e1, e2, ?_⟩
    intro k b
    rw [e3, i2]
    constructor
    · rintro ((h | h) | ⟨j, h1, h2, h3, h4⟩)
      · cases h; exact .inr ⟨i, Nat.le_refl _, by omega, rfl, rfl⟩
      · exact .inl h
      · exact .inr ⟨j, by omega, by omega, h3, h4⟩
    · rintro (h | ⟨j, h1, h2, h3, h4⟩)
      · exact .inl (.inr h)
      · by_cases hj : j = i
        · subst hj; left; left; rw [h3, h4]
        · exact .inr ⟨j, by omega, by omega, h3, h4⟩

/-- The map holds the blocks of the operations, and nothing else. -/
structure LinOK (m : SecMap) (ops : List Op) : Prop where
  sorted : m.Sorted
  mem : ∀ k b, (k, b) ∈ m ↔ ∃ o ∈ ops, OpBlock o k b

theorem LinOK.nil : LinOK [] [] := ⟨.nil, by simp⟩

theorem span_lt (n i : Nat) :
    i < (if n % 2048 > 0 then n / 2048 + 1 else n / 2048) ↔ 2048 * i < n := by
  split <;> omega

theorem op_lin (rd : ReadDir) (pts : Path → Str) {ops : List Op} {o : Op} {s : PackState SecMap}
    (h : LinOK s.dev ops) (ha : OpAligned o) (hd : ∀ o' ∈ ops, OpDisj o' o) :
    ∃ m', o.run (linearEnv rd pts) s = (.ok (), ⟨m', s.log ++ opReports o⟩) ∧ LinOK m' (ops ++ [o]) := by
  have key : ∀ {m' : SecMap}, m'.Sorted → (∀ k b, (k, b) ∈ m' ↔ (k, b) ∈ s.dev ∨ OpBlock o k b) →
      LinOK m' (ops ++ [o]) := by
    intro m' h1 h2
    refine ⟨h1, fun k b => ?_⟩
    rw [h2, h.mem]
    constructor
    · rintro (⟨o', h1, h2⟩ | h)
      · exact ⟨o', by simp [h1], h2⟩
      · exact ⟨o, by simp, h⟩
    · rintro ⟨o', k1, k2⟩
      rcases List.mem_append.1 k1 with k1 | k1
      · exact .inl ⟨o', k1, k2⟩
      · rw [List.mem_singleton] at k1; subst k1; exact .inr k2
  have hfree : ∀ k b b', OpBlock o k b → (k, b') ∉ s.dev := by
    intro k b b' hb hm
    obtain ⟨o', h1, h2⟩ := (h.mem k b').1 hm
    exact hd o' h1 k b' b h2 hb
  cases o with
  | report p =>
    exact ⟨s.dev, rfl, key h.sorted (by simp [OpBlock])⟩
  | write off d =>
    obtain ⟨m', e1, e2, e3⟩ := linWriteLoop_spec d.length (off / 2048) d s.dev (Nat.le_refl _) h.sorted
      (fun i b hi => hfree _ _ b ⟨i, hi, rfl, rfl⟩)
    refine ⟨m', ?_, key e2 e3⟩
    simp only [Op.run, PM.onDev, linearEnv, linWrite, OpAligned] at ha ⊢
    simp only [ha, ne_eq, not_true_eq_false, if_false, e1, opReports, List.append_nil]
  | copy p out n =>
    obtain ⟨m', e1, e2, e3⟩ := linCopyLoop_spec p (out / 2048)
      (if n % 2048 > 0 then n / 2048 + 1 else n / 2048) 0 s.dev h.sorted
      (fun j b _ hj => hfree _ _ b ⟨j, by rw [Nat.zero_add] at hj; exact (span_lt n j).1 hj, rfl, rfl⟩)
    refine ⟨m', ?_, key e2 ?_⟩
    · simp only [Op.run, PM.bind_def, PM.onDev, linearEnv, linCopyIn, OpAligned] at ha ⊢
      simp only [ha, ne_eq, not_true_eq_false, if_false, e1, opReports, List.append_nil, PM.pure_def]
    · intro k b
      rw [e3]
      simp only [OpBlock, Nat.zero_add, Nat.zero_le, true_and, span_lt]

theorem runOps_lin (rd : ReadDir) (pts : Path → Str) : ∀ {ops done : List Op} {s : PackState SecMap},
    LinOK s.dev done → (∀ o ∈ ops, OpAligned o) → (done ++ ops).Pairwise OpDisj →
    ∃ m', runOps (linearEnv rd pts) ops s = (.ok (), ⟨m', s.log ++ ops.flatMap opReports⟩) ∧
      LinOK m' (done ++ ops) := by
  intro ops
  induction ops with
  | nil => intro done s h _ _; exact ⟨s.dev, by simp [runOps, PM.pure_def], by simpa using h⟩
  | cons o ops ih =>
    intro done s h ha hd
    obtain ⟨m1, e1, e2⟩ := op_lin rd pts h (ha o List.mem_cons_self) (fun o' ho' =>
      (List.pairwise_append.1 hd).2.2 o' ho' o List.mem_cons_self)
    obtain ⟨m2, e3, e4⟩ := ih (done := done ++ [o]) (s := ⟨m1, s.log ++ opReports o⟩) e2
      (fun o' ho' => ha o' (List.mem_cons_of_mem _ ho')) (by simpa using hd)
    refine ⟨m2, ?_, by simpa using e4⟩
    simp only [runOps, PM.bind_def, e1, e3, List.flatMap_cons, List.append_assoc]

/-! ## The operations of a plan -/

/-- A source with the same listings whose files consist of zeros. -/
def zeroFs (rd : ReadDir) (pts : Path → Str) : SourceFs where
  readDir := rd
  pathToString := pts
  copy := fun _ _ n => ([List.replicate n 0], .ok n)

theorem zeroFs_bounded (rd : ReadDir) (pts : Path → Str) : Bounded (zeroFs rd pts) := by
  intro p n; simp [zeroFs]

theorem opDisj_of_writes {rd : ReadDir} {pts : Path → Str} {o o' : Op} (ha : OpAligned o)
    (ha' : OpAligned o')
    (h : ∀ w ∈ opWrites (zeroFs rd pts) o, ∀ w' ∈ opWrites (zeroFs rd pts) o', DisjW w w') :
    OpDisj o o' := by
  have key : ∀ (a b la lb : Nat), a % 2048 = 0 → b % 2048 = 0 → (a + la ≤ b ∨ b + lb ≤ a) →
      ∀ i j, 2048 * i < la → 2048 * j < lb → a / 2048 + i ≠ b / 2048 + j := by
    intros; omega
  intro k b b' h1 h2
  cases o with
  | report => exact h1
  | write off d =>
    obtain ⟨i, i1, i2, _⟩ := h1
    cases o' with
    | report => exact h2
    | write off' d' =>
      obtain ⟨j, j1, j2, _⟩ := h2
      exact key off off' _ _ ha ha' (h _ (List.mem_singleton.2 rfl) _ (List.mem_singleton.2 rfl)) i j i1 j1 (by omega)
    | copy p' out' n' =>
      obtain ⟨j, j1, j2, _⟩ := h2
      have := h _ (List.mem_singleton.2 rfl) (out', List.replicate n' 0) (by simp [opWrites, zeroFs, chunksAt])
      simp only [DisjW, List.length_replicate] at this
      exact key off out' _ _ ha ha' this i j i1 j1 (by omega)
  | copy p out n =>
    obtain ⟨i, i1, i2, _⟩ := h1
    cases o' with
    | report => exact h2
    | write off' d' =>
      obtain ⟨j, j1, j2, _⟩ := h2
      have := h (out, List.replicate n 0) (by simp [opWrites, zeroFs, chunksAt]) _ (List.mem_singleton.2 rfl)
      simp only [DisjW, List.length_replicate] at this
      exact key out off' _ _ ha ha' this i j i1 j1 (by omega)
    | copy p' out' n' =>
      obtain ⟨j, j1, j2, _⟩ := h2
      have := h (out, List.replicate n 0) (by simp [opWrites, zeroFs, chunksAt])
        (out', List.replicate n' 0) (by simp [opWrites, zeroFs, chunksAt])
      simp only [DisjW, List.length_replicate] at this
      exact key out out' _ _ ha ha' this i j i1 j1 (by omega)

theorem planOps_aligned (pts : Path → Str) (D : List (Path × List FileEntry)) (recs : List Rec) :
    ∀ o ∈ planOps pts D recs, OpAligned o := by
  intro o ho
  simp only [planOps, List.mem_append, List.mem_cons, List.not_mem_nil, or_false] at ho
  rcases ho with ho | (rfl | rfl) | ho
  · simp only [discovered, List.mem_map] at ho
    obtain ⟨_, _, rfl⟩ := ho; trivial
  · trivial
  · trivial
  · obtain ⟨x, _, ho⟩ := List.mem_flatMap.1 ho
    simp only [opsRec, List.mem_cons] at ho
    rcases ho with rfl | rfl | ho
    · trivial
    · simp [OpAligned, sectorSize]
    · obtain ⟨l, _, ho⟩ := List.mem_flatMap.1 ho
      unfold opsEntry at ho
      rcases List.mem_cons.1 ho with rfl | ho
      · trivial
      · split at ho
        · simp at ho
        · simp at ho; subst ho; simp [OpAligned, sectorSize]

theorem descOp_aligned (n : Nat) : OpAligned (descOp n) := by
  simp [descOp, OpAligned, sectorSize]

theorem PlanShape.ops_disjoint {rd : ReadDir} {pts : Path → Str} {D M rootW rootSize next recs n' rest}
    (h : PlanShape rd pts D M rootW rootSize next recs n' rest) :
    (planOps pts D recs ++ [descOp rootSize]).Pairwise OpDisj := by
  have h1 := PlanShape.all_disjoint (fs := zeroFs rd pts) h (zeroFs_bounded rd pts)
  have h2 : ((planOps pts D recs ++ [descOp rootSize]).flatMap (opWrites (zeroFs rd pts))).Pairwise DisjW := by
    rw [List.flatMap_append]; exact h1
  have hal : ∀ o ∈ planOps pts D recs ++ [descOp rootSize], OpAligned o := by
    intro o ho
    rcases List.mem_append.1 ho with ho | ho
    · exact planOps_aligned _ _ _ o ho
    · rw [List.mem_singleton] at ho; subst ho; exact descOp_aligned _
  rw [List.pairwise_flatMap] at h2
  have hself : (planOps pts D recs ++ [descOp rootSize]).Pairwise
      (fun a b => OpAligned a ∧ OpAligned b) := by
    rw [List.pairwise_iff_getElem]
    intro i j hi hj _
    exact ⟨hal _ (List.getElem_mem _), hal _ (List.getElem_mem _)⟩
  refine (h2.2.and hself).imp ?_
  rintro a b ⟨k1, k2, k3⟩
  exact opDisj_of_writes k2 k3 k1

/-- A list of pairwise disjoint operations: two operations that share a sector are the same. -/
theorem opDisj_eq {ops : List Op} (h : ops.Pairwise OpDisj) {o o' : Op} (ho : o ∈ ops) (ho' : o' ∈ ops)
    {k : Nat} {b b' : Block} (hb : OpBlock o k b) (hb' : OpBlock o' k b') : o = o' := by
  induction ops with
  | nil => simp at ho
  | cons x ops ih =>
    have h' := List.pairwise_cons.1 h
    rcases List.mem_cons.1 ho with e1 | e1 <;> rcases List.mem_cons.1 ho' with e2 | e2
    · rw [e1, e2]
    · subst e1; exact absurd hb' (h'.1 _ e2 k b b' hb)
    · subst e2; exact absurd hb (h'.1 _ e1 k b' b hb')
    · exact ih h'.2 e1 e2

end Xdvdfs
