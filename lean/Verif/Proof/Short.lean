import Verif.Proof.PackEnd
import Verif.Proof.LinearMain
import Verif.Props.Layout

/-!
# Sources that deliver less than they list
-/

namespace Xdvdfs
open Spec Props

/-- The source that delivers zeros for what is missing. -/
def padded (fs : SourceFs) : SourceFs :=
  { fs with copy := fun p o n =>
      ((fs.copy p o n).1 ++ [List.replicate (n - (fs.copy p o n).1.flatten.length) 0], (fs.copy p o n).2) }

theorem chunksAt_snoc (z : Bytes) : ∀ (cs : List Bytes) (off : Nat),
    chunksAt off (cs ++ [z]) = chunksAt off cs ++ [(off + cs.flatten.length, z)] := by
  intro cs
  induction cs with
  | nil => intro off; simp [chunksAt]
  | cons c cs ih =>
    intro off
    simp only [List.cons_append, chunksAt, ih, List.flatten_cons, List.length_append]
    rw [Nat.add_assoc]

theorem padded_writes {fs : SourceFs} {ops : List Op} {w : Nat × Bytes} :
    (w ∈ ops.flatMap (opWrites fs) → w ∈ ops.flatMap (opWrites (padded fs))) ∧
    (w ∈ ops.flatMap (opWrites (padded fs)) → w ∈ ops.flatMap (opWrites fs) ∨ ∀ b ∈ w.2, b = 0) := by
  simp only [List.mem_flatMap]
  refine ⟨?_, ?_⟩
  · rintro ⟨o, ho, hw⟩
    refine ⟨o, ho, ?_⟩
    cases o with
    | report p => exact hw
    | write off d => exact hw
    | copy p off n =>
      simp only [opWrites, padded, chunksAt_snoc] at hw ⊢
      exact List.mem_append_left _ hw
  · rintro ⟨o, ho, hw⟩
    cases o with
    | report p => exact .inl ⟨_, ho, hw⟩
    | write off d => exact .inl ⟨_, ho, hw⟩
    | copy p off n =>
      simp only [opWrites, padded, chunksAt_snoc] at hw
      rcases List.mem_append.1 hw with hw | hw
      · exact .inl ⟨_, ho, hw⟩
      · right
        simp only [List.mem_singleton] at hw
        subst hw
        intro b hb
        exact (List.mem_replicate.1 hb).2

theorem padded_bounded {fs : SourceFs} (hb : Bounded fs) : Bounded (padded fs) := by
  intro p n
  have := hb p n
  simp only [padded, List.flatten_append, List.flatten_cons, List.flatten_nil, List.append_nil, List.length_append,
    List.length_replicate]
  omega

/-- Two traces, the second of which has additional writes of zeros only, with all writes in place: the results agree up to
zeros at the end. -/
theorem trace_zeros {W W' : List (Nat × Bytes)} (h1 : ∀ w ∈ W, w ∈ W') (h2 : ∀ w ∈ W', w ∈ W ∨ ∀ b ∈ w.2, b = 0)
    (hat : ∀ w ∈ W, At (applyTrace [] W) w.1 w.2) (hat' : ∀ w ∈ W', At (applyTrace [] W') w.1 w.2) :
    (applyTrace [] W).length ≤ (applyTrace [] W').length ∧
    (∀ (i : Nat) b, (applyTrace [] W)[i]? = some b → (applyTrace [] W')[i]? = some b) ∧
    (∀ (i : Nat) b, (applyTrace [] W).length ≤ i → (applyTrace [] W')[i]? = some b → b = 0) := by
  have hl : (applyTrace [] W).length ≤ (applyTrace [] W').length := by
    refine applyTrace_length_le (by simp) ?_
    intro w hw hne
    exact applyTrace_length.2 w (h1 w hw) hne
  have hcov : ∀ (i : Nat) w, w ∈ W → w.1 ≤ i → i < w.1 + w.2.length →
      (applyTrace [] W)[i]? = w.2[i - w.1]? ∧ (applyTrace [] W')[i]? = w.2[i - w.1]? := by
    intro i w hw a b
    have e : w.1 + (i - w.1) = i := by omega
    have c1 := hat w hw (i - w.1) (by omega)
    have c2 := hat' w (h1 w hw) (i - w.1) (by omega)
    rw [e] at c1 c2
    exact ⟨c1, c2⟩
  have hz : ∀ (i : Nat) b, (¬ ∃ w ∈ W, w.1 ≤ i ∧ i < w.1 + w.2.length) →
      ((applyTrace [] W)[i]? = some b → b = 0) ∧ ((applyTrace [] W')[i]? = some b → b = 0) := by
    intro i b hno
    refine ⟨?_, ?_⟩
    · intro h
      rcases applyTrace_byte h with h | h | ⟨w, hw, a, c, _⟩
      · simp at h
      · exact h
      · exact absurd ⟨w, hw, a, c⟩ hno
    · intro h
      rcases applyTrace_byte h with h | h | ⟨w, hw, a, c, d⟩
      · simp at h
      · exact h
      · rcases h2 w hw with hw | hw
        · exact absurd ⟨w, hw, a, c⟩ hno
        · exact hw b (List.mem_of_getElem? d)
  refine ⟨hl, ?_, ?_⟩
  · intro i b h
    by_cases hc : ∃ w ∈ W, w.1 ≤ i ∧ i < w.1 + w.2.length
    · obtain ⟨w, hw, a, c⟩ := hc
      obtain ⟨k1, k2⟩ := hcov i w hw a c
      rw [k2, ← k1]; exact h
    · have hi : i < (applyTrace [] W').length := Nat.lt_of_lt_of_le (List.getElem?_eq_some_iff.1 h).1 hl
      have e1 := (hz i b hc).1 h
      have e2 := (hz i _ hc).2 (List.getElem?_eq_getElem hi)
      rw [List.getElem?_eq_getElem hi, e2, e1]
  · intro i b hi h
    refine (hz i b ?_).2 h
    rintro ⟨w, hw, a, c⟩
    have := (applyTrace_length (W := W) (img := [])).2 w hw (by intro e; rw [e] at c; simp at c; omega)
    omega

theorem writeAt_end (img d : Bytes) : writeAt img img.length d = img ++ d := by
  unfold writeAt
  split
  · next h => simp [h]
  · rw [List.take_length, Nat.sub_self, List.drop_eq_nil_of_le (by omega)]
    simp

theorem apply_padOf (img : Bytes) : ∃ n, applyTrace img (padOf img) = img ++ List.replicate n 0 ∧
    img.length + n = (img.length + 65535) / 65536 * 65536 := by
  unfold padOf
  split
  · exact ⟨_, writeAt_end img _, by omega⟩
  · exact ⟨0, by simp [applyTrace], by omega⟩

/-- The image of a source is, up to zeros at the end, the image of the source that delivers zeros for what is missing. -/
theorem short_image {fs : SourceFs} {D M rootW rootSize next recs n' }
    (hS : PlanShape fs.readDir fs.pathToString D M rootW rootSize next recs n' []) (hb : Bounded fs) {P : List (Nat × Bytes)}
    (hP : P = padOf (applyTrace [] ((planOps fs.pathToString D recs).flatMap (opWrites fs) ++
          [(32 * 2048, rootDesc 33 rootSize)]))) {img : Bytes}
    (himg : img = applyTrace [] ((planOps fs.pathToString D recs).flatMap (opWrites fs) ++
        (32 * 2048, rootDesc 33 rootSize) :: P)) :
    (∀ w ∈ (planOps fs.pathToString D recs).flatMap (opWrites fs) ++ [(32 * 2048, rootDesc 33 rootSize)],
      At img w.1 w.2) ∧
    ∃ n, ∀ w ∈ (planOps fs.pathToString D recs).flatMap (opWrites (padded fs)) ++ [(32 * 2048, rootDesc 33 rootSize)],
      At (img ++ List.replicate n 0) w.1 w.2 := by
  have hS' : PlanShape (padded fs).readDir (padded fs).pathToString D M rootW rootSize next recs n' [] := hS
  have hb' := padded_bounded hb
  have hA := pad_at hS hb (img0 := []) (P := P) (by rw [hP]; exact torn_pad (.refl _))
  rw [← himg] at hA
  refine ⟨hA, ?_⟩
  generalize hW : (planOps fs.pathToString D recs).flatMap (opWrites fs) ++ [(32 * 2048, rootDesc 33 rootSize)] = W at *
  generalize hW' : (planOps fs.pathToString D recs).flatMap (opWrites (padded fs)) ++
    [(32 * 2048, rootDesc 33 rootSize)] = W'
  have hat : ∀ w ∈ W, At (applyTrace [] W) w.1 w.2 := by
    rw [← hW]; exact fun w hw => applyTrace_at (img := []) (hS.all_disjoint hb) w hw
  have hat' : ∀ w ∈ W', At (applyTrace [] W') w.1 w.2 := by
    rw [← hW']; exact fun w hw => applyTrace_at (img := []) (hS'.all_disjoint hb') w hw
  obtain ⟨k1, k2, k3⟩ := trace_zeros (W := W) (W' := W') (by
      rw [← hW, ← hW']
      intro w hw
      rcases List.mem_append.1 hw with hw | hw
      · exact List.mem_append_left _ (padded_writes.1 hw)
      · exact List.mem_append_right _ hw) (by
      rw [← hW, ← hW']
      intro w hw
      rcases List.mem_append.1 hw with hw | hw
      · rcases padded_writes.2 hw with hw | hw
        · exact .inl (List.mem_append_left _ hw)
        · exact .inr hw
      · exact .inl (List.mem_append_right _ hw)) hat hat'
  obtain ⟨m, m1, m2⟩ := apply_padOf (applyTrace [] W)
  have e : img = applyTrace [] W ++ List.replicate m 0 := by
    rw [himg, ← m1, ← hP, ← applyTrace_append, ← hW]
    simp
  refine ⟨(applyTrace [] W').length, ?_⟩
  intro w hw i hi
  rw [← hat' w hw i hi, e, List.append_assoc, List.getElem?_append]
  have hfit := (applyTrace_length (img := [])).2 w hw (by intro h; rw [h] at hi; simp at hi)
  have hin : w.1 + i < (applyTrace [] W').length := by omega
  split
  · next h => rw [k2 _ _ (List.getElem?_eq_getElem h), List.getElem?_eq_getElem h]
  · next h =>
    have := k3 (w.1 + i) _ (by omega) (List.getElem?_eq_getElem hin)
    rw [List.getElem?_eq_getElem hin, this, List.replicate_append_replicate, List.getElem?_replicate, if_pos (by omega)]

end Xdvdfs
