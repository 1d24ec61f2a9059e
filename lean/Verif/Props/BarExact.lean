import Verif.Props.CompressBar

/-!
# C116, exactly: what the progress bar of the page "Compress" shows for images of any size
-/

namespace Xdvdfs.Props

open Xdvdfs Spec

variable {F D : Type}

theorem BarExact.percent_wraps (a b : UInt32) : (percent a b).toNat = 100 * a.toNat % 2 ^ 32 / b.toNat := by
  unfold percent
  by_cases hb : b = 0
  · subst hb; simp
  · rw [if_pos hb, UInt32.toNat_div, UInt32.toNat_mul]
    rfl

variable {es : List (UiEvent (CompMsg F D) F D)} {s : UiSys (CompPage F D) (Picked F D × D)}

/-- **C116, exactly.**  For every number of sectors that fits in 32 bits (8 TiB): from the moment the compressor says that
there are `n` sectors the page shows how many of them are done, of `n`; the bar shows the percentage computed modulo
2^32. -/
theorem C116_bar_exactly (h : Happens compDef es (.ok s)) (hj : s.jobs ≠ []) (ht : s.page.inputType.isSome)
    {before : List (CompMsg F D)} (hm : ∀ m ∈ before, compDef (F := F) (D := D).midMsg m) {n : Nat}
    (hn : n < 2 ^ 32) {ds : List Nat} (hd : ds.sum ≤ n) :
    ∃ s' v, Happens compDef (es ++ (before ++ compressorReports n ds).map (.report 0)) (.ok s') ∧ Shows compDef s' v ∧
      v.done.toNat = ds.sum ∧ v.total.toNat = n ∧ v.percent.toNat = 100 * ds.sum % 2 ^ 32 / n ∧ s'.jobs = s.jobs ∧
      s'.page.inputType.isSome := by
  obtain ⟨h1, h2⟩ := comp_fold (before ++ compressorReports n ds) es h hj ht (by
    intro m hm'
    rcases List.mem_append.1 hm' with hm' | hm'
    · exact hm m hm'
    · exact mid_sector m hm')
  rw [List.foldl_append] at h1 h2
  simp only [compressorReports, List.foldl_cons] at h1 h2
  generalize before.foldl compMid s.page = p0 at h1 h2
  have hp0 : (compMid p0 (.updateCompression (.sectorCount n))).progress.toNat = 0 := rfl
  have hc0 : (compMid p0 (.updateCompression (.sectorCount n))).count.toNat = n := by
    show (UInt32.ofNat n).toNat = n
    rw [UInt32.toNat_ofNat']
    exact Nat.mod_eq_of_lt (by omega)
  obtain ⟨g1, g2⟩ := sectors_done (n := n) (by omega) ds (compMid p0 (.updateCompression (.sectorCount n)))
    (by rw [hp0]; omega)
  generalize (ds.map (fun d => CompMsg.updateCompression (F := F) (D := D) (.sectorsDone d))).foldl compMid
    (compMid p0 (.updateCompression (.sectorCount n))) = p1 at *
  have hb : p1.inputButtons.bind (fun inputs => .ok inputs) = p1.inputButtons := by cases p1.inputButtons <;> rfl
  obtain ⟨v, hv, _⟩ := compView_ok p1 (fun _ => by rw [h1]; exact ht)
  have hv' := hv
  unfold CompPage.view at hv'
  obtain ⟨inputs, _, hv'⟩ := Res.bind_eq_ok.1 hv'
  cases hv'
  have e1 : p1.progress.toNat = ds.sum := by rw [g1, hp0]; omega
  have e2 : p1.count.toNat = n := by rw [g2, hc0]
  refine ⟨_, _, h2, hv, e1, e2, ?_, rfl, by rw [h1]; exact ht⟩
  show (percent p1.progress p1.count).toNat = _
  rw [BarExact.percent_wraps, e1, e2]

/-- **C116, the end, exactly.**  When the compressor has said that it is done and the job succeeds, the page shows that all
sectors are done and a full bar if and only if there are at most 42949672 sectors. -/
theorem C116_full_iff (h : Happens compDef es (.ok s)) (hj : s.jobs ≠ []) (ht : s.page.inputType.isSome)
    {before : List (CompMsg F D)} (hm : ∀ m ∈ before, compDef (F := F) (D := D).midMsg m) {n : Nat}
    (hn : n < 2 ^ 32) (ds : List Nat) (text : Err → Str) :
    ∃ s' v, Happens compDef (es ++ webCompEvents text (before ++ compressorReports n ds ++ [.updateCompression .finished])
        (.ok ())) (.ok s') ∧ Shows compDef s' v ∧ s'.page.stage = .finished ∧ (ShowsAll v n ↔ 100 * n < 2 ^ 32) := by
  obtain ⟨h1, h2⟩ := comp_fold (before ++ compressorReports n ds ++ [.updateCompression .finished]) es h hj ht (by
    intro m hm'
    rcases List.mem_append.1 hm' with hm' | hm'
    · rcases List.mem_append.1 hm' with hm' | hm'
      · exact hm m hm'
      · exact mid_sector m hm'
    · rw [List.mem_singleton.1 hm']; rfl)
  obtain ⟨v, k1, k2, k3⟩ := comp_ends h2 hj (by simp only [h1]; exact ht) (st := .finished) (.inl rfl)
  rw [List.append_assoc] at k1
  refine ⟨_, v, k1, k2, rfl, ?_⟩
  rw [List.foldl_append, List.foldl_append] at k2
  simp only [compressorReports, List.foldl_cons, List.foldl_nil] at k2
  generalize before.foldl compMid s.page = p0 at k2
  have hcount : ∀ (ds : List Nat) (p : CompPage F D),
      ((ds.map (fun d => CompMsg.updateCompression (F := F) (D := D) (.sectorsDone d))).foldl compMid p).count =
        p.count := by
    intro ds
    induction ds with
    | nil => intro p; rfl
    | cons d ds ih => intro p; simp only [List.map_cons, List.foldl_cons]; rw [ih]; rfl
  have g2 := hcount ds (compMid p0 (.updateCompression (.sectorCount n)))
  have hc0 : (compMid p0 (.updateCompression (.sectorCount n))).count.toNat = n := by
    show (UInt32.ofNat n).toNat = n
    rw [UInt32.toNat_ofNat']
    exact Nat.mod_eq_of_lt (by omega)
  generalize (ds.map (fun d => CompMsg.updateCompression (F := F) (D := D) (.sectorsDone d))).foldl compMid
    (compMid p0 (.updateCompression (.sectorCount n))) = p1 at *
  have e2 : p1.count.toNat = n := by rw [g2, hc0]
  unfold Shows at k2
  simp only [compDef, CompPage.view] at k2
  obtain ⟨inputs, _, hv'⟩ := Res.bind_eq_ok.1 k2
  cases hv'
  have hp := BarExact.percent_wraps p1.count p1.count
  rw [e2] at hp
  constructor
  · rintro ⟨_, _, h3, _⟩
    have h3 : (percent p1.count p1.count).toNat = if n = 0 then 0 else 100 := h3
    rw [hp] at h3
    split at h3
    · next h0 => subst h0; decide
    · next h0 =>
      have h4 := Nat.div_mul_le_self (100 * n % 2 ^ 32) n
      rw [h3] at h4
      have h5 := Nat.mod_lt (100 * n) (show 2 ^ 32 > 0 by decide)
      omega
  · intro hs
    refine ⟨e2, e2, ?_, rfl⟩
    show (percent p1.count p1.count).toNat = _
    rw [hp, Nat.mod_eq_of_lt hs]
    by_cases h0 : n = 0
    · subst h0; rfl
    · rw [if_neg h0, Nat.mul_div_cancel _ (by omega)]

/-- `C116_full_iff` for an image that is too large: the page shows something else than a full bar. -/
example : ∃ s s' v, Happens compDef (compStart.take 5) (.ok s) ∧
    Happens compDef (compStart.take 5 ++ webCompEvents (fun _ => []) ([.updateProgress (.fileCount 1)] ++
      compressorReports 42949673 [1] ++ [.updateCompression .finished]) (.ok ())) (.ok s') ∧
    Shows compDef s' v ∧ ¬ ShowsAll v 42949673 := by
  have hs : ∃ s, Happens compDef (compStart.take 5) (.ok s) ∧ s.jobs ≠ [] ∧ s.page.inputType.isSome :=
    ⟨_, rfl, by simp, rfl⟩
  obtain ⟨s, h1, h2, h3⟩ := hs
  obtain ⟨s', v, k1, k2, _, k3⟩ := C116_full_iff h1 h2 h3 (before := [.updateProgress (.fileCount 1)])
    (by intro m hm; rw [List.mem_singleton.1 hm]; rfl) (n := 42949673) (by decide) [1] (fun _ => [])
  exact ⟨s, s', v, h1, k1, k2, fun h => absurd (k3.1 h) (by decide)⟩

end Xdvdfs.Props
