import Verif.Props.Fuse

/-!
# C53: exactly when a listing call fails
-/

namespace Xdvdfs.Props
open Xdvdfs Spec

/-- The record of `.` or `..` of the directory `ino`; it is the record number `k` of the listing. -/
def Spec.dotRecord (ino k : Nat) (name : Str) : DirRec := { ino, next := k, isDir := true, name }

/-- The buffer has room for those of the records `.` and `..` that are due when a listing is read from `o` on. -/
def Spec.RoomForDots (ino o : Nat) (full : List DirRec → DirRec → Bool) : Prop :=
  (o = 0 → full [] (Spec.dotRecord ino 1 ['.']) = false ∧
    full [Spec.dotRecord ino 1 ['.']] (Spec.dotRecord ino 2 ['.', '.']) = false) ∧
  (o = 1 → full [] (Spec.dotRecord ino 2 ['.', '.']) = false)

/-- C53, exactly: reading a directory that can be read, from any record on and with any buffer, delivers the records that
follow, as many as fit, if and only if the buffer has room for those of `.` and `..` that are due; otherwise it fails
with `EIO` and nothing is remembered.  (As long as the numbers for files have not run out.) -/
theorem C53_call_iff {m : Mount} {c : FuseCache} {ino : Nat} {tab : Region} (ht : c.table m.root ino = some tab)
    {ds : List DirEnt} (hs : scanAll m.dev tab m.fuel = .ok ds) (o : Nat) (hnum : c.next + (ds.length - (o - 2)) < 2 ^ 64)
    (full : List DirRec → DirRec → Bool) :
    (Spec.RoomForDots ino o full → ∃ recs c', fuseStep m c (.readdir ino o full) = .ok (.dir recs, c') ∧
      recs.map recKey = ((fullListing ds).drop o).take recs.length ∧
      (recs.length < (fullListing ds).length - o → ∃ r, full recs r = true)) ∧
    (¬ Spec.RoomForDots ino o full → fuseStep m c (.readdir ino o full) = .ok (.error .EIO, c)) := by
  obtain ⟨s, hi, hsc, hlen⟩ := scanAll_scans hs
  have hd : (Spec.RoomForDots ino o full → ∃ recs0, dotRecords ino o full = some recs0) ∧
      (¬ Spec.RoomForDots ino o full → dotRecords ino o full = none) := by
    unfold dotRecords
    simp only
    by_cases h0 : o = 0
    · subst h0
      rw [if_pos (by decide : ((0 : Nat) : Int) = 0)]
      simp only [Spec.RoomForDots, Spec.dotRecord, forall_const, Nat.zero_ne_one, false_implies, and_true]
      split
      · rename_i h1
        rw [h1]
        simp
      · rename_i h1
        simp only [Bool.not_eq_true] at h1
        rw [h1]
        split
        · rename_i h2
          rw [h2]
          simp
        · rename_i h2
          simp only [Bool.not_eq_true] at h2
          rw [h2]
          simp
    · rw [if_neg (by omega)]
      by_cases h1 : o = 1
      · subst h1
        rw [if_pos (by decide)]
        simp only [Spec.RoomForDots, Spec.dotRecord, forall_const, Nat.one_ne_zero, false_implies, true_and]
        split
        · rename_i h2
          rw [h2]
          simp
        · rename_i h2
          simp only [Bool.not_eq_true] at h2
          rw [h2]
          simp
      · rw [if_neg (by omega)]
        simp [Spec.RoomForDots, h0, h1]
  constructor
  · intro hr
    obtain ⟨recs0, hd⟩ := hd.1 hr
    obtain ⟨s', e1, e2⟩ := hsc.skip ((o : Int) - 2).toNat 2
    have hl : (ds.drop ((o : Int) - 2).toNat).length = ds.length - (o - 2) := by
      rw [List.length_drop]; omega
    obtain ⟨out, c', h⟩ := e2.add_succeeds (full := full) (f := m.fuel) (idx := 2 + min ((o : Int) - 2).toNat ds.length)
      (recs := recs0) (c := c) (by omega) (by omega)
    have hstep : fuseStep m c (.readdir ino o full) = .ok (.dir out, c') := by
      simp only [fuseStep, fuseReaddir, ht, hi, hd, e1, h]
    obtain ⟨g1, _, _, g4⟩ := readdir_call ht hs hstep
    exact ⟨out, c', hstep, g1, g4⟩
  · intro hr
    simp only [fuseStep, fuseReaddir, ht, hi, hd.2 hr]

/-- Room for one record is enough in the middle of a listing, but not at its beginning. -/
example (ino : Nat) : Spec.RoomForDots ino 1 (roomFor 1) ∧ ¬ Spec.RoomForDots ino 0 (roomFor 1) := by
  simp [Spec.RoomForDots, roomFor]

end Xdvdfs.Props
