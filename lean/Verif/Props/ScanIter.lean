import Verif.Model.ScanIter
import Verif.Props.Dirtab

/-!
# C133: iterating over a directory
-/

namespace Xdvdfs

/-- The iterator did what a scan without faults does, or it failed; it did not fail if no read failed. -/
def Follows {α : Type} (ok : Nat → Bool) (out : Res α × ScanIter) (a : α) (s : Scan) : Prop :=
  (out.1 = .ok a ∧ out.2.scan = s) ∨ ((∃ e, out.1 = .err e) ∧ ∃ k, ok k = false)

theorem iterSector_follows {ok : Nat → Bool} {dev : Dev} {it : ScanIter} {s : Scan} (h : it.scan.nextSector dev = .ok s) :
    Follows ok (iterSector ok dev it) () s := by
  unfold Scan.nextSector at h
  unfold iterSector
  simp only at h ⊢
  by_cases hc : it.scan.sector + 1 ≥ it.scan.endSector
  · rw [if_pos hc] at h ⊢
    cases h
    exact .inl ⟨rfl, rfl⟩
  · rw [if_neg hc] at h ⊢
    obtain ⟨buf, hb, h⟩ := Res.bind_eq_ok.1 h
    cases h
    cases hk : ok it.reads with
    | true => rw [if_pos rfl, hb]; exact .inl ⟨rfl, rfl⟩
    | false => exact .inr ⟨⟨.io, rfl⟩, _, hk⟩

/-- What a step of a scan says, as the iterator says it. -/
def stepSays : Scan ⊕ (Option DirEnt × Scan) → Option (Option DirEnt) × Scan
  | .inl s => (none, s)
  | .inr (r, s) => (some r, s)

theorem iterStep_follows {ok : Nat → Bool} {dev : Dev} {it : ScanIter} {x : Scan ⊕ (Option DirEnt × Scan)}
    (h : it.scan.step dev = .ok x) : Follows ok (iterStep ok dev it) (stepSays x).1 (stepSays x).2 := by
  unfold Scan.step at h
  unfold iterStep
  by_cases h1 : it.scan.offset + 0xe < 2048
  · simp only [Res.assert, h1, if_true, Res.ok_bind, decide_true] at h ⊢
    cases hd : deserDirentNode (slice it.scan.buf it.scan.offset 0xe) with
    | none =>
      rw [hd] at h
      simp only at h ⊢
      by_cases h2 : it.scan.sector + 1 < it.scan.endSector
      · rw [if_pos h2] at h ⊢
        obtain ⟨s, hs, h⟩ := Res.bind_eq_ok.1 h
        cases h
        rcases iterSector_follows (ok := ok) hs with ⟨e1, e2⟩ | ⟨⟨e, e1⟩, k, e2⟩
        · generalize iterSector ok dev it = q at e1 e2 ⊢
          obtain ⟨q1, q2⟩ := q
          cases e1
          exact .inl ⟨rfl, e2⟩
        · generalize iterSector ok dev it = q at e1 ⊢
          obtain ⟨q1, q2⟩ := q
          cases e1
          exact .inr ⟨⟨e, rfl⟩, k, e2⟩
      · rw [if_neg h2] at h ⊢
        cases h
        exact .inl ⟨rfl, rfl⟩
    | some node =>
      rw [hd] at h
      simp only at h ⊢
      by_cases h2 : it.scan.offset + 0xe + node.dirent.nameLen.toNat ≤ 2048
      · simp only [h2, if_true, Res.ok_bind, decide_true] at h ⊢
        split at h
        · next h3 =>
          rw [if_pos h3]
          obtain ⟨s, hs, h⟩ := Res.bind_eq_ok.1 h
          cases h
          rcases iterSector_follows (ok := ok) (it := ⟨{ it.scan with
            offset := it.scan.offset + 0xe + node.dirent.nameLen.toNat +
              (4 - (it.scan.offset + 0xe + node.dirent.nameLen.toNat) % 4) % 4 }, it.reads⟩) hs with
            ⟨e1, e2⟩ | ⟨⟨e, e1⟩, k, e2⟩
          · revert e1 e2
            generalize iterSector ok dev _ = q
            intro e1 e2
            obtain ⟨q1, q2⟩ := q
            cases e1
            exact .inl ⟨rfl, e2⟩
          · revert e1
            generalize iterSector ok dev _ = q
            intro e1
            obtain ⟨q1, q2⟩ := q
            cases e1
            exact .inr ⟨⟨e, rfl⟩, k, e2⟩
        · next h3 =>
          rw [if_neg h3]
          cases h
          exact .inl ⟨rfl, rfl⟩
      · simp only [h2, decide_false, if_false] at h
        cases h
  · simp only [Res.assert, h1, decide_false] at h
    cases h

theorem iterLoop_follows {ok : Nat → Bool} {dev : Dev} : ∀ {fuel : Nat} {it : ScanIter} {r : Option DirEnt × Scan},
    Scan.nextLoop dev fuel it.scan = .ok r → Follows ok (iterLoop ok dev fuel it) r.1 r.2 := by
  intro fuel
  induction fuel with
  | zero => intro it r h; cases h
  | succ fuel ih =>
    intro it r h
    rw [Scan.nextLoop] at h
    obtain ⟨x, hx, h⟩ := Res.bind_eq_ok.1 h
    rw [iterLoop]
    rcases iterStep_follows (ok := ok) hx with ⟨e1, e2⟩ | ⟨⟨e, e1⟩, k, e2⟩
    · generalize iterStep ok dev it = q at e1 e2 ⊢
      obtain ⟨q1, q2⟩ := q
      cases e1
      cases x with
      | inl s =>
        simp only [stepSays] at e2 h ⊢
        rw [← e2] at h
        exact ih h
      | inr y =>
        cases h
        exact .inl ⟨rfl, e2⟩
    · generalize iterStep ok dev it = q at e1 ⊢
      obtain ⟨q1, q2⟩ := q
      cases e1
      exact .inr ⟨⟨e, rfl⟩, k, e2⟩

theorem iterEntry_follows {ok : Nat → Bool} {dev : Dev} {fuel : Nat} {it : ScanIter} {r : Option DirEnt × Scan}
    (h : it.scan.next dev fuel = .ok r) : Follows ok (iterEntry ok dev fuel it) r.1 r.2 := by
  unfold Scan.next at h
  unfold iterEntry
  by_cases hc : it.scan.sector ≥ it.scan.endSector
  · rw [if_pos hc] at h ⊢
    cases h
    exact .inl ⟨rfl, rfl⟩
  · rw [if_neg hc] at h ⊢
    exact iterLoop_follows h

/-- Nothing more is to come. -/
def AtEnd (s : Scan) : Prop :=
  s.sector ≥ s.endSector ∨
  (s.offset + 0xe < 2048 ∧ deserDirentNode (slice s.buf s.offset 0xe) = none ∧ ¬s.sector + 1 < s.endSector)

theorem next_none {dev : Dev} {fuel : Nat} {s s' : Scan} (h : s.next dev fuel = .ok (none, s')) : AtEnd s' := by
  have key : ∀ {fuel : Nat} {s : Scan}, Scan.nextLoop dev fuel s = .ok (none, s') → AtEnd s' := by
    intro fuel
    induction fuel with
    | zero => intro s h; cases h
    | succ fuel ih =>
      intro s h
      rw [Scan.nextLoop] at h
      obtain ⟨x, hx, h⟩ := Res.bind_eq_ok.1 h
      cases x with
      | inl t => exact ih h
      | inr y =>
        cases h
        unfold Scan.step at hx
        obtain ⟨_, ha, hx⟩ := Res.bind_eq_ok.1 hx
        have ho : s.offset + 0xe < 2048 := by
          by_cases hc : s.offset + 0xe < 2048
          · exact hc
          · simp [Res.assert, hc] at ha
        split at hx
        · next hd =>
          split at hx
          · obtain ⟨_, _, hx⟩ := Res.bind_eq_ok.1 hx
            cases hx
          · next hc =>
            cases hx
            exact .inr ⟨ho, hd, hc⟩
        · obtain ⟨_, _, hx⟩ := Res.bind_eq_ok.1 hx
          simp only at hx
          split at hx
          · obtain ⟨_, _, hx⟩ := Res.bind_eq_ok.1 hx
            cases hx
          · cases hx
  unfold Scan.next at h
  split at h
  · next hc => cases h; exact .inl hc
  · exact key h

theorem iterNext_end {ok : Nat → Bool} {dev : Dev} {it : ScanIter} (h : AtEnd it.scan) {n : Nat} (hn : 0 < n) :
    iterNext ok dev n it = (.ok none, it) := by
  unfold iterNext iterEntry
  obtain ⟨n, rfl⟩ : ∃ k, n = k + 1 := ⟨n - 1, by omega⟩
  by_cases hc : it.scan.sector ≥ it.scan.endSector
  · rw [if_pos hc]
  · rcases h with h | ⟨h1, h2, h3⟩
    · exact absurd h hc
    · have e : iterStep ok dev it = (.ok (some none), it) := by
        unfold iterStep
        simp only [if_pos h1, h2, if_neg h3]
      rw [if_neg hc, iterLoop, e]

theorem iterCollect_prefix {ok : Nat → Bool} {dev : Dev} : ∀ {fuel : Nat} {it : ScanIter} {acc l : List DirEnt},
    scanDrain dev fuel it.scan acc = .ok l →
    ∃ m it', iterCollect ok dev fuel it acc = (.ok m, it') ∧ acc.reverse <+: m ∧ m <+: l ∧
      ((∀ k, ok k = true) → m = l ∧ AtEnd it'.scan) := by
  intro fuel
  induction fuel with
  | zero => intro it acc l h; cases h
  | succ fuel ih =>
    intro it acc l h
    rw [scanDrain] at h
    obtain ⟨r, hr, h⟩ := Res.bind_eq_ok.1 h
    have hpre : ∀ {f : Nat} {s : Scan} {acc l : List DirEnt}, scanDrain dev f s acc = .ok l → acc.reverse <+: l := by
      intro f
      induction f with
      | zero => intro s acc l h; cases h
      | succ f ihf =>
        intro s acc l h
        rw [scanDrain] at h
        obtain ⟨r, _, h⟩ := Res.bind_eq_ok.1 h
        obtain ⟨o, s'⟩ := r
        cases o with
        | none => cases h; exact List.prefix_refl _
        | some d =>
          refine List.IsPrefix.trans ?_ (ihf h)
          rw [List.reverse_cons]
          exact List.prefix_append _ _
    rw [iterCollect]
    unfold iterNext
    rcases iterEntry_follows (ok := ok) hr with ⟨e1, e2⟩ | ⟨⟨e, e1⟩, k, e2⟩
    · generalize iterEntry ok dev (fuel + 1) it = q at e1 e2 ⊢
      obtain ⟨q1, q2⟩ := q
      obtain ⟨o, s'⟩ := r
      cases e1
      cases o with
      | none =>
        cases h
        refine ⟨_, _, rfl, List.prefix_refl _, List.prefix_refl _, fun _ => ⟨rfl, ?_⟩⟩
        simp only at e2
        rw [e2]
        exact next_none hr
      | some d =>
        simp only at e2 h
        rw [← e2] at h
        obtain ⟨m, it', h1, h2, h3, h4⟩ := ih h
        refine ⟨m, it', h1, List.IsPrefix.trans ?_ h2, h3, h4⟩
        rw [List.reverse_cons]
        exact List.prefix_append _ _
    · generalize iterEntry ok dev (fuel + 1) it = q at e1 ⊢
      obtain ⟨q1, q2⟩ := q
      cases e1
      have hp : acc.reverse <+: l := by
        obtain ⟨o, s'⟩ := r
        cases o with
        | none => cases h; exact List.prefix_refl _
        | some d =>
          refine List.IsPrefix.trans ?_ (hpre h)
          rw [List.reverse_cons]
          exact List.prefix_append _ _
      refine ⟨_, _, rfl, List.prefix_refl _, hp, fun hall => ?_⟩
      rw [hall k] at e2
      cases e2

namespace Props

open TabWriter Spec

/-- C133.  Iterating over a directory delivers its entries in the order of a scan, and never anything else: whatever reads
fail, what is delivered before the first `None` is a part of the listing from its start.  If no read fails, it is the whole
listing, and `None` is delivered from then on.

Partial: a read that fails ends the iteration like the end of the directory does; see the next theorem. -/
theorem C133_iteration_partial {dev : Dev} {tab : Region} {fuel : Nat} {listing : List DirEnt}
    (hl : scanAll dev tab fuel = .ok listing) : ∃ s, scanInit dev tab = .ok s ∧
      (∀ ok, ∃ got it, iterCollect ok dev fuel ⟨s, 0⟩ [] = (.ok got, it) ∧ got <+: listing) ∧
      (∀ ok, (∀ k, ok k = true) → ∃ it, iterCollect ok dev fuel ⟨s, 0⟩ [] = (.ok listing, it) ∧
        ∀ n, 0 < n → iterNext ok dev n it = (.ok none, it)) := by
  unfold scanAll at hl
  obtain ⟨s, hs, hl⟩ := Res.bind_eq_ok.1 hl
  refine ⟨s, hs, ?_, ?_⟩
  · intro ok
    obtain ⟨m, it, h1, _, h3, _⟩ := iterCollect_prefix (ok := ok) (it := ⟨s, 0⟩) hl
    exact ⟨m, it, h1, h3⟩
  · intro ok hok
    obtain ⟨m, it, h1, _, _, h4⟩ := iterCollect_prefix (ok := ok) (it := ⟨s, 0⟩) hl
    obtain ⟨rfl, h5⟩ := h4 hok
    refine ⟨it, h1, fun n hn => ?_⟩
    exact iterNext_end h5 hn

/-- C133.  For a directory that the packer wrote: if no read fails, iterating over it delivers each of its entries once, in
the order in which the packer lists them, and nothing else; whatever reads fail, a part of this from its start. -/
theorem C133_packed_directory {items : List Item} {w : TabWriter} (hb : buildTable items = .ok w) {next next' : Nat}
    {r : DiskRepr} (hr : w.diskRepr next = .ok (r, next')) {dev : Dev} {tab : Region} (hP : Spec.Placed dev tab w r)
    {fuel : Nat} (hf : items.length < fuel) : ∃ s, scanInit dev tab = .ok s ∧
      (∀ ok, ∃ got it, iterCollect ok dev fuel ⟨s, 0⟩ [] = (.ok got, it) ∧ got.map summary <+: r.fileListing) ∧
      (∀ ok, (∀ k, ok k = true) → ∃ got it, iterCollect ok dev fuel ⟨s, 0⟩ [] = (.ok got, it) ∧
        got.map summary = r.fileListing) := by
  obtain ⟨ds, ss, _, h2, _, h4⟩ := C25_scan_agrees hb hr hP
  obtain ⟨s, hs, h5, h6⟩ := C133_iteration_partial (h2 fuel hf)
  refine ⟨s, hs, fun ok => ?_, fun ok hok => ?_⟩
  · obtain ⟨got, it, g1, g2⟩ := h5 ok
    refine ⟨got, it, g1, ?_⟩
    rw [← h4]
    exact g2.map summary
  · obtain ⟨it, g1, _⟩ := h6 ok hok
    exact ⟨ss, it, g1, h4⟩

/-- A directory of two sectors with one entry in each, `a` and `b`. -/
def twoSectors : Bytes :=
  [0, 0, 0, 0, 2, 0, 0, 0, 1, 0, 0, 0, 0x20, 1, 97, 0xff] ++ List.replicate 2032 0xff ++
  ([0, 0, 0, 0, 3, 0, 0, 0, 1, 0, 0, 0, 0x20, 1, 98, 0xff] ++ List.replicate 2032 0xff)

def sectorA : DirEnt := ⟨⟨0, 0, ⟨⟨2, 1⟩, 0x20, 1⟩⟩, [97], 0⟩
def sectorB : DirEnt := ⟨⟨0, 0, ⟨⟨3, 1⟩, 0x20, 1⟩⟩, [98], 0⟩

set_option maxRecDepth 20000 in
theorem two_sectors_scan : scanAll (fileDev twoSectors) ⟨0, 4096⟩ 4 = .ok [sectorA, sectorB] := by decide +kernel

/-- The hypotheses of C133 are met by a table of six items, all of which are delivered. -/
example : ∃ (dev : Dev) (s : Scan) (got : List DirEnt) (it : ScanIter), scanInit dev ⟨0, 120⟩ = .ok s ∧
    iterCollect (fun _ => true) dev 7 ⟨s, 0⟩ [] = (.ok got, it) ∧ ∃ r : DiskRepr, got.map summary = r.fileListing ∧
      (∃ w n, buildTable sampleItems = .ok w ∧ w.diskRepr 34 = .ok (r, n)) := by
  obtain ⟨w, r, n, h1, h2, h3⟩ := sample_placed
  obtain ⟨s, k1, _, k3⟩ := C133_packed_directory h1 h2 h3 (fuel := 7) (by decide)
  obtain ⟨got, it, k4, k5⟩ := k3 (fun _ => true) (fun _ => rfl)
  exact ⟨_, s, got, it, k1, k4, r, k5, w, n, h1, h2⟩

/-- What three calls of `next` deliver. -/
def threeCalls (ok : Nat → Bool) (dev : Dev) (fuel : Nat) (it : ScanIter) : List (Res (Option DirEnt)) :=
  let a := iterNext ok dev fuel it
  let b := iterNext ok dev fuel a.2
  let c := iterNext ok dev fuel b.2
  [a.1, b.1, c.1]

/-- C133 is false of iterators when a read fails: the iteration ends like one that is complete, although an entry is
missing; and when the iterator is asked again it delivers an entry a second time, and the one that is missing never. -/
theorem C133_read_error_false : ∃ (ok : Nat → Bool) (dev : Dev) (tab : Region) (s : Scan) (a b : DirEnt) (it : ScanIter),
    scanAll dev tab 4 = .ok [a, b] ∧ a ≠ b ∧ (∀ k, 0 < k → ok k = true) ∧ scanInit dev tab = .ok s ∧
    iterCollect ok dev 4 ⟨s, 0⟩ [] = (.ok [a], it) ∧
    (iterEntry ok dev 4 (iterEntry ok dev 4 ⟨s, 0⟩).2).1 = .err .io ∧
    threeCalls ok dev 4 ⟨s, 0⟩ = [.ok (some a), .ok none, .ok (some a)] ∧
    iterCollect ok dev 4 it [] = (.ok [a], (iterCollect ok dev 4 it []).2) ∧
    iterNext ok dev 4 (iterCollect ok dev 4 it []).2 = (.ok none, (iterCollect ok dev 4 it []).2) := by
  let ok : Nat → Bool := fun k => decide (0 < k)
  let s : Scan := ⟨0, slice twoSectors 0 2048, 0, 2⟩
  let it : ScanIter := ⟨⟨1, slice twoSectors 0 2048, 0, 2⟩, 1⟩
  refine ⟨ok, fileDev twoSectors, ⟨0, 4096⟩, s, sectorA, sectorB, it, two_sectors_scan, by decide,
    fun k hk => by simp [ok, hk], ?_, ?_, ?_, ?_, ?_, ?_⟩
  all_goals decide +kernel

end Props

end Xdvdfs
