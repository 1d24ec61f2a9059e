import Verif.Props.ScanIter

/-!
# C133, exactly: which reads make a loop over a directory stop early
-/

namespace Xdvdfs

namespace IterExact

/-- As `Follows`, with the reads that were made: all succeeded, or the last one failed. -/
def Reads {α : Type} (ok : Nat → Bool) (it : ScanIter) (out : Res α × ScanIter) (a : α) (s : Scan) : Prop :=
  (out.1 = .ok a ∧ out.2.scan = s ∧ it.reads ≤ out.2.reads ∧ ∀ j, it.reads ≤ j → j < out.2.reads → ok j = true) ∨
  ((∃ e, out.1 = .err e) ∧ ∃ k, it.reads ≤ k ∧ out.2.reads = k + 1 ∧ ok k = false ∧ ∀ j, it.reads ≤ j → j < k → ok j = true)

theorem Reads.trans {α : Type} {ok : Nat → Bool} {it it' : ScanIter} {out : Res α × ScanIter} {a : α} {s : Scan}
    (h : Reads ok it' out a s) (hle : it.reads ≤ it'.reads) (hall : ∀ j, it.reads ≤ j → j < it'.reads → ok j = true) :
    Reads ok it out a s := by
  have hj : ∀ {n : Nat}, (∀ j, it'.reads ≤ j → j < n → ok j = true) → ∀ j, it.reads ≤ j → j < n → ok j = true := by
    intro n hn j h1 h2
    by_cases hc : j < it'.reads
    · exact hall j h1 hc
    · exact hn j (Nat.le_of_not_lt hc) h2
  rcases h with ⟨h1, h2, h3, h4⟩ | ⟨h1, k, h2, h3, h4, h5⟩
  · exact .inl ⟨h1, h2, Nat.le_trans hle h3, hj h4⟩
  · exact .inr ⟨h1, k, Nat.le_trans hle h2, h3, h4, hj h5⟩

theorem iterSector_reads {ok : Nat → Bool} {dev : Dev} {it : ScanIter} {s : Scan} (h : it.scan.nextSector dev = .ok s) :
    Reads ok it (iterSector ok dev it) () s := by
  unfold Scan.nextSector at h
  unfold iterSector
  simp only at h ⊢
  by_cases hc : it.scan.sector + 1 ≥ it.scan.endSector
  · rw [if_pos hc] at h ⊢
    cases h
    exact .inl ⟨rfl, rfl, Nat.le_refl _, fun j a b => absurd b (Nat.not_lt.2 a)⟩
  · rw [if_neg hc] at h ⊢
    obtain ⟨buf, hb, h⟩ := Res.bind_eq_ok.1 h
    cases h
    cases hk : ok it.reads with
    | true => rw [if_pos rfl, hb]; exact .inl ⟨rfl, rfl, Nat.le_succ _, fun j a b => by rw [show j = it.reads by simp only at b; omega]; exact hk⟩
    | false => exact .inr ⟨⟨.io, rfl⟩, _, Nat.le_refl _, rfl, hk, fun j a b => absurd b (Nat.not_lt.2 a)⟩

theorem iterStep_reads {ok : Nat → Bool} {dev : Dev} {it : ScanIter} {x : Scan ⊕ (Option DirEnt × Scan)}
    (h : it.scan.step dev = .ok x) : Reads ok it (iterStep ok dev it) (stepSays x).1 (stepSays x).2 := by
  unfold Scan.step at h
  unfold iterStep
  by_cases h1 : it.scan.offset + 0xe < 2048
  · simp only [Res.assert, h1, if_true, Res.ok_bind, decide_true] at h ⊢
    cases hd : deserDirentNode (slice it.scan.buf it.scan.offset 0xe) with
    | none =>
      rw [hd] at h
      simp only at h ⊢
      by_cases h2 : it.scan.sector + 1 < it.scan.endSector
      · rw [if_pos h2] at h ⊢
        obtain ⟨s, hs, h⟩ := Res.bind_eq_ok.1 h
        cases h
        rcases iterSector_reads (ok := ok) hs with ⟨e1, e2⟩ | ⟨⟨e, e1⟩, k, e2⟩
        · generalize iterSector ok dev it = q at e1 e2 ⊢
          obtain ⟨q1, q2⟩ := q
          cases e1
          exact .inl ⟨rfl, e2⟩
        · generalize iterSector ok dev it = q at e1 e2 ⊢
          obtain ⟨q1, q2⟩ := q
          cases e1
          exact .inr ⟨⟨e, rfl⟩, k, e2⟩
      · rw [if_neg h2] at h ⊢
        cases h
        exact .inl ⟨rfl, rfl, Nat.le_refl _, fun j a b => absurd b (Nat.not_lt.2 a)⟩
    | some node =>
      rw [hd] at h
      simp only at h ⊢
      by_cases h2 : it.scan.offset + 0xe + node.dirent.nameLen.toNat ≤ 2048
      · simp only [h2, if_true, Res.ok_bind, decide_true] at h ⊢
        split at h
        · next h3 =>
          rw [if_pos h3]
          obtain ⟨s, hs, h⟩ := Res.bind_eq_ok.1 h
          cases h
          rcases iterSector_reads (ok := ok) (it := ⟨{ it.scan with
            offset := it.scan.offset + 0xe + node.dirent.nameLen.toNat +
              (4 - (it.scan.offset + 0xe + node.dirent.nameLen.toNat) % 4) % 4 }, it.reads⟩) hs with
            ⟨e1, e2⟩ | ⟨⟨e, e1⟩, k, e2⟩
          · revert e1 e2
            generalize iterSector ok dev _ = q
            intro e1 e2
            obtain ⟨q1, q2⟩ := q
            cases e1
            exact .inl ⟨rfl, e2⟩
          · revert e1 e2
            generalize iterSector ok dev _ = q
            intro e1 e2
            obtain ⟨q1, q2⟩ := q
            cases e1
            exact .inr ⟨⟨e, rfl⟩, k, e2⟩
        · next h3 =>
          rw [if_neg h3]
          cases h
          exact .inl ⟨rfl, rfl, Nat.le_refl _, fun j a b => absurd b (Nat.not_lt.2 a)⟩
      · simp only [h2, decide_false, if_false] at h
        cases h
  · simp only [Res.assert, h1, decide_false] at h
    cases h

theorem iterLoop_reads {ok : Nat → Bool} {dev : Dev} : ∀ {fuel : Nat} {it : ScanIter} {r : Option DirEnt × Scan},
    Scan.nextLoop dev fuel it.scan = .ok r → Reads ok it (iterLoop ok dev fuel it) r.1 r.2 := by
  intro fuel
  induction fuel with
  | zero => intro it r h; cases h
  | succ fuel ih =>
    intro it r h
    rw [Scan.nextLoop] at h
    obtain ⟨x, hx, h⟩ := Res.bind_eq_ok.1 h
    rw [iterLoop]
    rcases iterStep_reads (ok := ok) hx with ⟨e1, e2⟩ | ⟨⟨e, e1⟩, k, e2⟩
    · generalize iterStep ok dev it = q at e1 e2 ⊢
      obtain ⟨q1, q2⟩ := q
      cases e1
      cases x with
      | inl s =>
        obtain ⟨e2, e3, e4⟩ := e2
        simp only [stepSays] at e2 h ⊢
        rw [← e2] at h
        exact (ih h).trans e3 e4
      | inr y =>
        cases h
        exact .inl ⟨rfl, e2⟩
    · generalize iterStep ok dev it = q at e1 e2 ⊢
      obtain ⟨q1, q2⟩ := q
      cases e1
      exact .inr ⟨⟨e, rfl⟩, k, e2⟩

theorem iterEntry_reads {ok : Nat → Bool} {dev : Dev} {fuel : Nat} {it : ScanIter} {r : Option DirEnt × Scan}
    (h : it.scan.next dev fuel = .ok r) : Reads ok it (iterEntry ok dev fuel it) r.1 r.2 := by
  unfold Scan.next at h
  unfold iterEntry
  by_cases hc : it.scan.sector ≥ it.scan.endSector
  · rw [if_pos hc] at h ⊢
    cases h
    exact .inl ⟨rfl, rfl, Nat.le_refl _, fun j a b => absurd b (Nat.not_lt.2 a)⟩
  · rw [if_neg hc] at h ⊢
    exact iterLoop_reads h

theorem iterCollect_reads {ok : Nat → Bool} {dev : Dev} : ∀ {fuel : Nat} {it : ScanIter} {acc l : List DirEnt},
    scanDrain dev fuel it.scan acc = .ok l → ∃ m it', iterCollect ok dev fuel it acc = (.ok m, it') ∧
      ((m = l ∧ AtEnd it'.scan ∧ ∀ j, it.reads ≤ j → j < it'.reads → ok j = true) ∨
       ∃ k, it.reads ≤ k ∧ it'.reads = k + 1 ∧ ok k = false ∧ ∀ j, it.reads ≤ j → j < k → ok j = true) := by
  intro fuel
  induction fuel with
  | zero => intro it acc l h; cases h
  | succ fuel ih =>
    intro it acc l h
    rw [scanDrain] at h
    obtain ⟨r, hr, h⟩ := Res.bind_eq_ok.1 h
    rw [iterCollect]
    unfold iterNext
    rcases iterEntry_reads (ok := ok) hr with ⟨e1, e2, e3, e4⟩ | ⟨⟨e, e1⟩, k, e2⟩
    · generalize iterEntry ok dev (fuel + 1) it = q at e1 e2 e3 e4 ⊢
      obtain ⟨q1, q2⟩ := q
      obtain ⟨o, s'⟩ := r
      cases e1
      simp only at e2 e3 e4 h
      cases o with
      | none =>
        cases h
        exact ⟨_, _, rfl, .inl ⟨rfl, e2 ▸ next_none hr, e4⟩⟩
      | some d =>
        simp only at h
        rw [← e2] at h
        have hj : ∀ {n : Nat}, (∀ j, q2.reads ≤ j → j < n → ok j = true) → ∀ j, it.reads ≤ j → j < n → ok j = true := by
          intro n hn j h1 h2
          by_cases hc : j < q2.reads
          · exact e4 j h1 hc
          · exact hn j (Nat.le_of_not_lt hc) h2
        obtain ⟨m, it', h1, h2⟩ := ih h
        refine ⟨m, it', h1, ?_⟩
        rcases h2 with ⟨a1, a2, a3⟩ | ⟨k, a1, a2, a3, a4⟩
        · exact .inl ⟨a1, a2, hj a3⟩
        · exact .inr ⟨k, Nat.le_trans e3 a1, a2, a3, hj a4⟩
    · generalize iterEntry ok dev (fuel + 1) it = q at e1 e2 ⊢
      obtain ⟨q1, q2⟩ := q
      cases e1
      exact ⟨_, _, rfl, .inr ⟨k, e2⟩⟩

end IterExact

namespace Props

open IterExact

/-- C133, exactly.  Whatever reads fail, a loop over a directory ends, and what it delivers is a part of the listing from
its start.  Either every read it made succeeded; then it delivered the whole listing, and the iterator delivers `None` from
then on.  Or the last read it made is the first one that failed: the loop ends there, and nothing in what it delivers says
so. -/
theorem C133_exactly {dev : Dev} {tab : Region} {fuel : Nat} {listing : List DirEnt}
    (hl : scanAll dev tab fuel = .ok listing) (ok : Nat → Bool) : ∃ s got it, scanInit dev tab = .ok s ∧
      iterCollect ok dev fuel ⟨s, 0⟩ [] = (.ok got, it) ∧ got <+: listing ∧
      (((∀ k, k < it.reads → ok k = true) ∧ got = listing ∧ ∀ n, 0 < n → iterNext ok dev n it = (.ok none, it)) ∨
       (∃ k, it.reads = k + 1 ∧ ok k = false ∧ ∀ j, j < k → ok j = true)) := by
  obtain ⟨s, hs, h1, _⟩ := C133_iteration_partial hl
  obtain ⟨got, it, h2, h3⟩ := h1 ok
  unfold scanAll at hl
  obtain ⟨s', hs', hl⟩ := Res.bind_eq_ok.1 hl
  rw [hs] at hs'
  cases hs'
  obtain ⟨m, it', h4, h5⟩ := iterCollect_reads (ok := ok) (it := ⟨s, 0⟩) hl
  rw [h2] at h4
  cases h4
  refine ⟨s, got, it, hs, h2, h3, ?_⟩
  rcases h5 with ⟨a1, a2, a3⟩ | ⟨k, _, a2, a3, a4⟩
  · exact .inl ⟨fun k hk => a3 k (Nat.zero_le _) hk, a1, fun n hn => iterNext_end a2 hn⟩
  · exact .inr ⟨k, a2, a3, fun j hj => a4 j (Nat.zero_le _) hj⟩

/-- `C133_exactly` for a directory of two sectors, of which the second cannot be read: the loop makes one read, which
fails. -/
example : ∃ s got it, scanInit (fileDev twoSectors) ⟨0, 4096⟩ = .ok s ∧
    iterCollect (fun _ => false) (fileDev twoSectors) 4 ⟨s, 0⟩ [] = (.ok got, it) ∧ got <+: [sectorA, sectorB] := by
  obtain ⟨s, got, it, h1, h2, h3, _⟩ := C133_exactly two_sectors_scan (fun _ => false)
  exact ⟨s, got, it, h1, h2, h3⟩

end Props

end Xdvdfs
