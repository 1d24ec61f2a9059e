import Verif.Props.BrowserShown

/-!
# The progress bar of the page "Compress" (C116)
-/

namespace Xdvdfs.Props

open Xdvdfs Spec

variable {F D : Type}

/-- The page after reports of the running job. -/
theorem comp_fold : ∀ (ms : List (CompMsg F D)) (es : List (UiEvent (CompMsg F D) F D))
    {s : UiSys (CompPage F D) (Picked F D × D)}, Happens compDef es (.ok s) → s.jobs ≠ [] → s.page.inputType.isSome →
    (∀ m ∈ ms, compDef (F := F) (D := D).midMsg m) →
    (ms.foldl compMid s.page).inputType = s.page.inputType ∧
    Happens compDef (es ++ ms.map (.report 0)) (.ok { s with page := ms.foldl compMid s.page }) := by
  intro ms
  induction ms with
  | nil => intro es s h _ _ _; exact ⟨rfl, by simpa using h⟩
  | cons m ms ih =>
    intro es s h hj ht hm
    have hu : s.page.update m = .ok (compMid s.page m, none) := by
      have := hm m (by simp)
      cases m with
      | updateProgress r => rfl
      | updateCompression r => rfl
      | changeState st => rfl
      | _ => simp [compDef] at this
    obtain ⟨v, hv, _⟩ := compView_ok (compMid s.page m) (fun _ => by rw [compMid_type]; exact ht)
    have hstep : s.step compDef (.report 0 m) = some (.ok { s with page := compMid s.page m }) := by
      simp only [UiSys.step]
      rw [if_pos ⟨List.length_pos_iff.2 hj, hm m (by simp)⟩]
      simp [UiSys.deliver, compDef, hu, hv]
    have hhap : Happens compDef (es ++ [.report 0 m]) (.ok { s with page := compMid s.page m }) := by
      simp only [Happens] at h ⊢
      rw [runUi_append, h]
      simp only [runUi, hstep]
    obtain ⟨hp, this⟩ := ih (es ++ [.report 0 m]) (s := { s with page := compMid s.page m }) hhap hj
      (by rw [compMid_type]; exact ht) (fun m' hm' => hm m' (by simp [hm']))
    exact ⟨by simp only [List.foldl_cons]; rw [hp, compMid_type], by simpa using this⟩

/-- Sectors that are done are added up. -/
theorem sectors_done {n : Nat} (hn : n < 2 ^ 32) : ∀ (ds : List Nat) (p : CompPage F D),
    p.progress.toNat + ds.sum ≤ n →
    ((ds.map (fun d => CompMsg.updateCompression (F := F) (D := D) (.sectorsDone d))).foldl compMid p).progress.toNat =
      p.progress.toNat + ds.sum ∧
    ((ds.map (fun d => CompMsg.updateCompression (F := F) (D := D) (.sectorsDone d))).foldl compMid p).count = p.count := by
  intro ds
  induction ds with
  | nil => intro p _; exact ⟨by simp, rfl⟩
  | cons d ds ih =>
    intro p hle
    simp only [List.map_cons, List.foldl_cons, List.sum_cons] at hle ⊢
    have hadd : (p.progress + UInt32.ofNat d).toNat = p.progress.toNat + d := by
      rw [UInt32.toNat_add, UInt32.toNat_ofNat']
      show (p.progress.toNat + d % 2 ^ 32) % 2 ^ 32 = _
      rw [Nat.mod_eq_of_lt (a := d) (by omega), Nat.mod_eq_of_lt (by omega)]
    obtain ⟨h1, h2⟩ := ih (compMid p (.updateCompression (.sectorsDone d))) (by
      show (p.progress + UInt32.ofNat d).toNat + _ ≤ n
      omega)
    refine ⟨?_, h2⟩
    rw [h1]
    show (p.progress + UInt32.ofNat d).toNat + _ = _
    omega

theorem percent_toNat {a b : UInt32} (h : 100 * a.toNat < 2 ^ 32) : (percent a b).toNat = 100 * a.toNat / b.toNat := by
  unfold percent
  by_cases hb : b = 0
  · subst hb; simp
  · rw [if_pos hb, UInt32.toNat_div, UInt32.toNat_mul]
    show 100 * a.toNat % 2 ^ 32 / _ = _
    rw [Nat.mod_eq_of_lt h]

/-- The reports of a compressor that has `n` sectors to compress and does them in pieces of the given sizes. -/
def compressorReports (n : Nat) (ds : List Nat) : List (CompMsg F D) :=
  .updateCompression (.sectorCount n) :: ds.map (fun d => .updateCompression (.sectorsDone d))

variable {es : List (UiEvent (CompMsg F D) F D)} {s : UiSys (CompPage F D) (Picked F D × D)}

theorem mid_sector : (∀ m ∈ (compressorReports n ds : List (CompMsg F D)), compDef (F := F) (D := D).midMsg m) := by
  intro m hm
  rcases List.mem_cons.1 hm with rfl | hm
  · rfl
  · obtain ⟨d, _, rfl⟩ := List.mem_map.1 hm
    rfl

/-- **C116 for images of less than 42949673 sectors (partial).**  Missing: larger images, for which
`C116_large_false` shows that the bar is wrong.  Whatever was reported before, from the moment the compressor says that
there are `n` sectors the page shows how many of them are done, of `n`, and the bar shows the percentage. -/
theorem C116_bar_partial (h : Happens compDef es (.ok s)) (hj : s.jobs ≠ []) (ht : s.page.inputType.isSome)
    {before : List (CompMsg F D)} (hm : ∀ m ∈ before, compDef (F := F) (D := D).midMsg m) {n : Nat}
    (hn : 100 * n < 2 ^ 32) {ds : List Nat} (hd : ds.sum ≤ n) :
    ∃ s' v, Happens compDef (es ++ (before ++ compressorReports n ds).map (.report 0)) (.ok s') ∧ Shows compDef s' v ∧
      v.done.toNat = ds.sum ∧ v.total.toNat = n ∧ v.percent.toNat = 100 * ds.sum / n ∧ s'.jobs = s.jobs ∧
      s'.page.inputType.isSome := by
  obtain ⟨h1, h2⟩ := comp_fold (before ++ compressorReports n ds) es h hj ht (by
    intro m hm'
    rcases List.mem_append.1 hm' with hm' | hm'
    · exact hm m hm'
    · exact mid_sector m hm')
  rw [List.foldl_append] at h1 h2
  simp only [compressorReports, List.foldl_cons] at h1 h2
  generalize before.foldl compMid s.page = p0 at h1 h2
  have hp0 : (compMid p0 (.updateCompression (.sectorCount n))).progress.toNat = 0 := rfl
  have hc0 : (compMid p0 (.updateCompression (.sectorCount n))).count.toNat = n := by
    show (UInt32.ofNat n).toNat = n
    rw [UInt32.toNat_ofNat']
    exact Nat.mod_eq_of_lt (by omega)
  obtain ⟨g1, g2⟩ := sectors_done (n := n) (by omega) ds (compMid p0 (.updateCompression (.sectorCount n)))
    (by rw [hp0]; omega)
  generalize (ds.map (fun d => CompMsg.updateCompression (F := F) (D := D) (.sectorsDone d))).foldl compMid
    (compMid p0 (.updateCompression (.sectorCount n))) = p1 at *
  have hb : p1.inputButtons.bind (fun inputs => .ok inputs) = p1.inputButtons := by cases p1.inputButtons <;> rfl
  obtain ⟨v, hv, _⟩ := compView_ok p1 (fun _ => by rw [h1]; exact ht)
  have hv' := hv
  unfold CompPage.view at hv'
  obtain ⟨inputs, _, hv'⟩ := Res.bind_eq_ok.1 hv'
  cases hv'
  have e1 : p1.progress.toNat = ds.sum := by rw [g1, hp0]; omega
  have e2 : p1.count.toNat = n := by rw [g2, hc0]
  refine ⟨_, _, h2, hv, e1, e2, ?_, rfl, by rw [h1]; exact ht⟩
  show (percent p1.progress p1.count).toNat = _
  rw [percent_toNat (by omega), e1, e2]

/-- **C116, the end (partial, like `C116_bar_partial`).**  When the compressor has said that it is done and the job
succeeds, the page shows that all sectors are done and a full bar, however many it had reported one by one. -/
theorem C116_full_partial (h : Happens compDef es (.ok s)) (hj : s.jobs ≠ []) (ht : s.page.inputType.isSome)
    {before : List (CompMsg F D)} (hm : ∀ m ∈ before, compDef (F := F) (D := D).midMsg m) {n : Nat}
    (hn : 100 * n < 2 ^ 32) (ds : List Nat) (text : Err → Str) :
    ∃ s' v, Happens compDef (es ++ webCompEvents text (before ++ compressorReports n ds ++ [.updateCompression .finished])
        (.ok ())) (.ok s') ∧ Shows compDef s' v ∧ s'.page.stage = .finished ∧ ShowsAll v n := by
  obtain ⟨h1, h2⟩ := comp_fold (before ++ compressorReports n ds ++ [.updateCompression .finished]) es h hj ht (by
    intro m hm'
    rcases List.mem_append.1 hm' with hm' | hm'
    · rcases List.mem_append.1 hm' with hm' | hm'
      · exact hm m hm'
      · exact mid_sector m hm'
    · rw [List.mem_singleton.1 hm']; rfl)
  obtain ⟨v, k1, k2, k3⟩ := comp_ends h2 hj (by simp only [h1]; exact ht) (st := .finished) (.inl rfl)
  rw [List.append_assoc] at k1
  refine ⟨_, v, k1, k2, rfl, ?_⟩
  rw [List.foldl_append, List.foldl_append] at k2
  simp only [compressorReports, List.foldl_cons, List.foldl_nil] at k2
  generalize before.foldl compMid s.page = p0 at k2
  have hcount : ∀ (ds : List Nat) (p : CompPage F D),
      ((ds.map (fun d => CompMsg.updateCompression (F := F) (D := D) (.sectorsDone d))).foldl compMid p).count =
        p.count := by
    intro ds
    induction ds with
    | nil => intro p; rfl
    | cons d ds ih => intro p; simp only [List.map_cons, List.foldl_cons]; rw [ih]; rfl
  have g2 := hcount ds (compMid p0 (.updateCompression (.sectorCount n)))
  have hc0 : (compMid p0 (.updateCompression (.sectorCount n))).count.toNat = n := by
    show (UInt32.ofNat n).toNat = n
    rw [UInt32.toNat_ofNat']
    exact Nat.mod_eq_of_lt (by omega)
  generalize (ds.map (fun d => CompMsg.updateCompression (F := F) (D := D) (.sectorsDone d))).foldl compMid
    (compMid p0 (.updateCompression (.sectorCount n))) = p1 at *
  have e2 : p1.count.toNat = n := by rw [g2, hc0]
  unfold Shows at k2
  simp only [compDef, CompPage.view] at k2
  obtain ⟨inputs, _, hv'⟩ := Res.bind_eq_ok.1 k2
  cases hv'
  refine ⟨e2, e2, ?_, rfl⟩
  show (percent p1.count p1.count).toNat = _
  rw [percent_toNat (by omega), e2]
  by_cases h0 : n = 0
  · subst h0; rfl
  · rw [if_neg h0, Nat.mul_div_cancel _ (by omega)]

/-- **C116 is false for large images.**  When 42949673 sectors, about 82 GiB, were compressed, the bar is empty in the
end. -/
theorem C116_large_false : ∃ (n : Nat) (s : UiSys (CompPage Str Str) (Picked Str Str × Str)) (v : Shown),
    Happens compDef (compStart ++ [.report 0 (.updateCompression (.sectorCount n)),
      .report 0 (.updateCompression (.sectorsDone n)), .report 0 (.updateCompression .finished),
      .ends 0 (.changeState .finished)]) (.ok s) ∧
    Shows compDef s v ∧ v.done.toNat = n ∧ v.total.toNat = n ∧ v.percent = 0 :=
  ⟨42949673, _, _, rfl, rfl, by decide +kernel, by decide +kernel, by decide +kernel⟩

/-- The hypotheses of C116 hold while a folder is compressed: after the reports of packing, there are 10 sectors, and 4
and 3 of them are done. -/
example : ∃ s s' v, Happens compDef (compStart.take 5) (.ok s) ∧ s.jobs ≠ [] ∧ s.page.inputType.isSome ∧
    Happens compDef (compStart.take 5 ++ (([.updateProgress (.fileCount 1), .changeState .compressing] ++
      compressorReports 10 [4, 3] : List (CompMsg Str Str)).map (.report 0))) (.ok s') ∧
    Shows compDef s' v ∧ v.done.toNat = 7 ∧ v.percent.toNat = 70 := by
  have hs : ∃ s, Happens compDef (compStart.take 5) (.ok s) ∧ s.jobs ≠ [] ∧ s.page.inputType.isSome :=
    ⟨_, rfl, by simp, rfl⟩
  obtain ⟨s, h1, h2, h3⟩ := hs
  obtain ⟨s', v, k1, k2, k3, _, k5, _⟩ := C116_bar_partial h1 h2 h3
    (before := [.updateProgress (.fileCount 1), .changeState .compressing]) (n := 10) (ds := [4, 3])
    (by intro m hm; simp only [List.mem_cons, List.not_mem_nil, or_false] at hm; rcases hm with rfl | rfl <;> rfl)
    (by omega) (by decide)
  exact ⟨s, s', v, h1, h2, h3, k1, k2, k3, k5⟩

end Xdvdfs.Props
