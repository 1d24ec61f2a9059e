import Verif.Proof.ImgRead

/-!
# The possible ends of a pack
-/

namespace Xdvdfs

open TabWriter Spec Props

theorem Torn.nil {W : List (Nat × Bytes)} (h : Torn W []) : W = [] := by
  rcases h with ⟨rest, h⟩ | ⟨pre, off, d, m, rest, h, _⟩
  · exact (List.append_eq_nil_iff.1 h.symm).1
  · simp at h

theorem Torn.single {W : List (Nat × Bytes)} {off : Nat} {d : Bytes} (h : Torn W [(off, d)]) :
    W = [] ∨ W = [(off, d)] ∨ ∃ m, W = [(off, d.take m)] := by
  rcases h with ⟨rest, h⟩ | ⟨pre, off', d', m, rest, h, rfl⟩
  · cases W with
    | nil => exact .inl rfl
    | cons x W =>
      simp only [List.cons_append, List.cons.injEq] at h
      obtain ⟨h1, h2⟩ := h
      rw [(List.append_eq_nil_iff.1 h2.symm).1, ← h1]
      exact .inr (.inl rfl)
  · cases pre with
    | nil =>
      simp only [List.nil_append, List.cons.injEq, Prod.mk.injEq] at h
      obtain ⟨⟨rfl, rfl⟩, _⟩ := h
      exact .inr (.inr ⟨m, rfl⟩)
    | cons x pre => simp at h

/-- Every write of a torn trace is within a planned write. -/
theorem Torn.mem {W' W : List (Nat × Bytes)} (h : Torn W' W) {w : Nat × Bytes} (hw : w ∈ W') :
    ∃ m, (w.1, m) ∈ W ∧ w.2.length ≤ m.length := by
  rcases h with ⟨rest, rfl⟩ | ⟨pre, off, d, m, rest, rfl, rfl⟩
  · exact ⟨w.2, by simp [hw], Nat.le_refl _⟩
  · rcases List.mem_append.1 hw with hw | hw
    · exact ⟨w.2, by simp [hw], Nat.le_refl _⟩
    · rw [List.mem_singleton] at hw
      subst hw
      exact ⟨d, by simp, by simp; omega⟩

theorem Torn.disj {W' W : List (Nat × Bytes)} (h : Torn W' W) (hW : W.Pairwise DisjW) :
    W'.Pairwise DisjW := by
  rcases h with ⟨rest, rfl⟩ | ⟨pre, off, d, m, rest, rfl, rfl⟩
  · exact (List.pairwise_append.1 hW).1
  · obtain ⟨h1, h2, h3⟩ := List.pairwise_append.1 hW
    rw [List.pairwise_append]
    refine ⟨h1, by simp, ?_⟩
    intro a ha b hb
    rw [List.mem_singleton] at hb
    subst hb
    have := h3 a ha (off, d) (by simp)
    unfold DisjW at *
    simp only [List.length_take] at *
    omega

/-- The end of a pack into a file. -/
inductive PackEnd (fs : SourceFs) (fuel : Nat) (img0 : Bytes) (res : Res Unit) (s' : PackState ImgFile) : Prop
  | early : res ≠ .ok () → s'.dev.trace = [] → PackEnd fs fuel img0 res s'
  | data {D M rootW rootSize next recs n' rest} :
      PlanShape fs.readDir fs.pathToString D M rootW rootSize next recs n' rest → res ≠ .ok () →
      Torn s'.dev.trace ((planOps fs.pathToString D recs).flatMap (opWrites fs)) →
      PackEnd fs fuel img0 res s'
  | desc {D M rootW rootSize next recs n' T} :
      PlanShape fs.readDir fs.pathToString D M rootW rootSize next recs n' [] → res ≠ .ok () →
      (∀ o ∈ planOps fs.pathToString D recs, OpOK fs o) →
      s'.dev.trace = (planOps fs.pathToString D recs).flatMap (opWrites fs) ++ T →
      Torn T [(32 * 2048, rootDesc 33 rootSize)] → PackEnd fs fuel img0 res s'
  | pad {D M rootW rootSize next recs n' P} :
      PlanShape fs.readDir fs.pathToString D M rootW rootSize next recs n' [] →
      D.length ≤ fuel →
      (∀ o ∈ planOps fs.pathToString D recs, OpOK fs o) →
      s'.dev.trace = (planOps fs.pathToString D recs).flatMap (opWrites fs) ++
        (32 * 2048, rootDesc 33 rootSize) :: P →
      Torn P (padOf (applyTrace img0 ((planOps fs.pathToString D recs).flatMap (opWrites fs) ++
        [(32 * 2048, rootDesc 33 rootSize)]))) →
      (res = .ok () →
        P = padOf (applyTrace img0 ((planOps fs.pathToString D recs).flatMap (opWrites fs) ++
          [(32 * 2048, rootDesc 33 rootSize)])) ∧
        s'.log = (planOps fs.pathToString D recs).flatMap opReports ++ [.finishedPacking]) →
      PackEnd fs fuel img0 res s'

theorem packEnd_of_trace {fs : SourceFs} {fuel : Nat} {img0 : Bytes} {res : Res Unit} {s' : PackState ImgFile}
    (h2 : (res ≠ .ok () ∧ TornOps fs s'.dev.trace (createP fs.readDir fs.pathToString fuel).ops) ∨
     ((createP fs.readDir fs.pathToString fuel).res = .ok () ∧
      (∀ o ∈ (createP fs.readDir fs.pathToString fuel).ops, OpOK fs o) ∧
      ∃ P, s'.dev.trace = (createP fs.readDir fs.pathToString fuel).ops.flatMap (opWrites fs) ++ P ∧
        Torn P (padOf (applyTrace img0 ((createP fs.readDir fs.pathToString fuel).ops.flatMap (opWrites fs)))) ∧
        (res = .ok () →
          P = padOf (applyTrace img0 ((createP fs.readDir fs.pathToString fuel).ops.flatMap (opWrites fs))) ∧
          s'.log = (createP fs.readDir fs.pathToString fuel).ops.flatMap opReports ++ [.finishedPacking]))) :
    PackEnd fs fuel img0 res s' := by
  have hdw : ∀ n, [descOp n].flatMap (opWrites fs) = [(32 * 2048, rootDesc 33 n)] := fun n => rfl
  rcases createP_inv fs.readDir fs.pathToString fuel with
    ⟨k1, k2⟩ | ⟨D, M, rootW, rootSize, next, recs, n', rest, hS, ⟨k1, rfl, k3, k4⟩ | ⟨k1, k2⟩⟩
  · rcases h2 with ⟨h2, h3⟩ | ⟨h2, _⟩
    · have := h3.torn
      rw [reports_no_writes fs k1] at this
      exact .early h2 this.nil
    · exact absurd h2 k2
  · rcases h2 with ⟨h2, h3⟩ | ⟨h2, h3, P, h4, h5, h6⟩
    · rw [k4] at h3
      rcases h3.snoc with h3 | ⟨h3, T, h4, h5⟩
      · exact .data hS h2 h3
      · exact .desc hS h2 h3 h4 h5
    · rw [k4] at h3 h4 h5 h6
      rw [List.flatMap_append, hdw] at h4 h5 h6
      refine .pad hS k3 (fun o ho => h3 o (by simp [ho])) (by rw [h4]; simp) h5 ?_
      intro hr
      obtain ⟨m1, m2⟩ := h6 hr
      refine ⟨m1, ?_⟩
      rw [m2, List.flatMap_append]
      simp [opReports, descOp]
  · rcases h2 with ⟨h2, h3⟩ | ⟨h2, _⟩
    · rw [k2] at h3
      exact .data hS h2 h3.torn
    · exact absurd h2 k1

theorem pack_end (fs : SourceFs) (faults : Faults) (fuel : Nat) (img0 : Bytes)
    {res : Res Unit} {s' : PackState ImgFile}
    (h : createImage (fileEnv fs faults) fuel ⟨⟨img0, []⟩, []⟩ = (res, s')) :
    s'.dev.img = applyTrace img0 s'.dev.trace ∧ PackEnd fs fuel img0 res s' :=
  ⟨(createImage_trace fs faults fuel img0 h).1, packEnd_of_trace (createImage_trace fs faults fuel img0 h).2⟩

/-! ## Consequences -/

theorem rootDesc_length (a b : Nat) : (rootDesc a b).length = 2048 :=
  VolDesc.ser_length _ (VolDesc.new_wf _)

theorem applyTrace_length : ∀ {W : List (Nat × Bytes)} {img : Bytes},
    img.length ≤ (applyTrace img W).length ∧
    ∀ w ∈ W, w.2 ≠ [] → w.1 + w.2.length ≤ (applyTrace img W).length := by
  intro W
  induction W with
  | nil => intro img; exact ⟨Nat.le_refl _, by simp⟩
  | cons x W ih =>
    intro img
    have hx : applyTrace img (x :: W) = applyTrace (writeAt img x.1 x.2) W := rfl
    rw [hx]
    obtain ⟨k1, k2⟩ := ih (img := writeAt img x.1 x.2)
    have hl := writeAt_length img x.1 x.2
    refine ⟨?_, ?_⟩
    · refine Nat.le_trans ?_ k1
      rw [hl]; split <;> omega
    · intro w hw hne
      rcases List.mem_cons.1 hw with rfl | hw
      · refine Nat.le_trans ?_ k1
        rw [hl, if_neg hne]; omega
      · exact k2 w hw hne

theorem PlanShape.all_disjoint {fs : SourceFs} {D M rootW rootSize next recs n' rest}
    (h : PlanShape fs.readDir fs.pathToString D M rootW rootSize next recs n' rest) (hb : Bounded fs) :
    ((planOps fs.pathToString D recs).flatMap (opWrites fs) ++ [(32 * 2048, rootDesc 33 rootSize)]).Pairwise
      DisjW := by
  obtain ⟨h1, h2⟩ := h.writes_disjoint hb
  rw [List.pairwise_append]
  refine ⟨h1, by simp, ?_⟩
  intro a ha b hb
  rw [List.mem_singleton] at hb
  subst hb
  have := (h2 a ha).1
  right
  simp only [rootDesc_length]
  omega

theorem torn_pad {P : List (Nat × Bytes)} {img : Bytes} (h : Torn P (padOf img)) :
    ∀ w ∈ P, w.1 = img.length := by
  intro w hw
  obtain ⟨m, h1, _⟩ := h.mem hw
  unfold padOf at h1
  split at h1
  · simp at h1; exact h1.1
  · simp at h1

/-- The final image after the descriptor: all planned writes are in place. -/
theorem pad_at {fs : SourceFs} {D M rootW rootSize next recs n' rest}
    (h : PlanShape fs.readDir fs.pathToString D M rootW rootSize next recs n' rest) (hb : Bounded fs)
    {img0 : Bytes} {P : List (Nat × Bytes)}
    (hP : ∀ w ∈ P, w.1 = (applyTrace img0 ((planOps fs.pathToString D recs).flatMap (opWrites fs) ++
        [(32 * 2048, rootDesc 33 rootSize)])).length) :
    ∀ w ∈ (planOps fs.pathToString D recs).flatMap (opWrites fs) ++ [(32 * 2048, rootDesc 33 rootSize)],
      At (applyTrace img0 ((planOps fs.pathToString D recs).flatMap (opWrites fs) ++
        (32 * 2048, rootDesc 33 rootSize) :: P)) w.1 w.2 := by
  intro w hw
  have e : (planOps fs.pathToString D recs).flatMap (opWrites fs) ++ (32 * 2048, rootDesc 33 rootSize) :: P
      = ((planOps fs.pathToString D recs).flatMap (opWrites fs) ++ [(32 * 2048, rootDesc 33 rootSize)]) ++ P := by
    simp
  rw [e, applyTrace_append]
  have h1 := applyTrace_at (img := img0) (h.all_disjoint hb) w hw
  by_cases hne : w.2 = []
  · intro i hi; rw [hne] at hi; simp at hi
  apply h1.trace
  intro x hx
  left
  rw [hP x hx]
  exact applyTrace_length.2 w hw hne

theorem PlanShape.allDistinct {fs : SourceFs} {pts} {D M rootW rootSize next recs n' rest}
    (h : PlanShape fs.readDir pts D M rootW rootSize next recs n' rest) : AllDistinct fs.readDir := by
  obtain ⟨_, h2, _, _⟩ := tables_ok h.walked h.tables
  intro p l hp hl
  obtain ⟨x, hx, rfl⟩ := List.mem_map.1 ((h.walked.mem_iff p).2 hp)
  have := h.walked.readDir (p := x.1) (l := x.2) hx
  rw [hl] at this
  cases this
  exact h2 x hx

/-- With the descriptor in place the image holds the tree. -/
theorem holdsTree_of_at {fs : SourceFs} {D M rootW rootSize next recs n'}
    (h : PlanShape fs.readDir fs.pathToString D M rootW rootSize next recs n' [])
    {content : Path → Bytes} (hf : FaithfulTo fs content)
    (hok : ∀ o ∈ planOps fs.pathToString D recs, OpOK fs o) {img : Bytes}
    (hat : ∀ w ∈ (planOps fs.pathToString D recs).flatMap (opWrites fs) ++
      [(32 * 2048, rootDesc 33 rootSize)], At img w.1 w.2) :
    HoldsTree (fileDev img) fs.readDir content := by
  have hI := h.img hf hok (im := img) (fun w hw => hat w (by simp [hw]))
  refine hI.holdsTree h.allDistinct (l0 := rootListing rootSize) (by simp [placedAll]) rfl h.walked
    (tables_ok h.walked h.tables).2.2.1 ?_
  have := (hat (32 * 2048, rootDesc 33 rootSize) (by simp)).holds
  rw [Nat.mul_comm]
  exact this

/-- A successful pack leaves the tree readable. -/
theorem pack_success {fs : SourceFs} {faults : Faults} {fuel : Nat} {img0 : Bytes} {s' : PackState ImgFile}
    {content : Path → Bytes} (hb : Bounded fs) (hf : FaithfulTo fs content)
    (h : createImage (fileEnv fs faults) fuel ⟨⟨img0, []⟩, []⟩ = (.ok (), s')) :
    HoldsTree (fileDev s'.dev.img) fs.readDir content := by
  obtain ⟨h1, h2⟩ := pack_end fs faults fuel img0 h
  cases h2 with
  | early h2 _ => exact absurd rfl h2
  | data _ h2 _ => exact absurd rfl h2
  | desc _ h2 _ _ _ => exact absurd rfl h2
  | pad hS hD hok htr hP _ =>
    apply holdsTree_of_at hS hf hok
    rw [h1, htr]
    exact pad_at hS hb (torn_pad hP)

/-! ## Images without a complete descriptor -/

/-- The last byte of the descriptor is missing or zero, so the image does not open. -/
theorem readVolume_zero {img : Bytes} (h : ∀ b, img[67583]? = some b → b = 0) :
    ∀ v, readVolume (fileDev img) ≠ .ok v := by
  intro v hv
  obtain ⟨b, h1, ⟨_, h2⟩, _⟩ := (C06_read_volume_iff (fileDev img) v).1 hv
  change fileRead img 65536 2048 = .ok b at h1
  unfold fileRead at h1
  rw [if_neg (by decide)] at h1
  split at h1
  · cases h1
    have h3 := congrArg (fun l => l[19]?) h2
    simp only [List.getElem?_drop] at h3
    have hm : Spec.magic[19]? = some 65 := by decide
    rw [hm] at h3
    have h4 : (slice img 65536 2048)[2028 + 19]? = img[67583]? := by
      unfold slice
      rw [List.getElem?_take_of_lt (by decide), List.getElem?_drop]
    rw [h4] at h3
    exact absurd (h _ h3) (by decide)
  · cases h1

theorem lowZero_data {fs : SourceFs} {D M rootW rootSize next recs n' rest}
    (h : PlanShape fs.readDir fs.pathToString D M rootW rootSize next recs n' rest) (hb : Bounded fs)
    {W : List (Nat × Bytes)} (hW : Torn W ((planOps fs.pathToString D recs).flatMap (opWrites fs))) :
    LowZero (applyTrace [] W) 67584 := by
  apply (LowZero.nil 67584).trace
  intro x hx
  obtain ⟨m, h1, _⟩ := hW.mem hx
  exact ((h.writes_disjoint hb).2 _ h1).1

/-- A pack that stopped anywhere. -/
theorem PackEnd.crash {fs : SourceFs} {fuel : Nat} {res : Res Unit} {s' : PackState ImgFile}
    {content : Path → Bytes} (hb : Bounded fs) (hf : FaithfulTo fs content)
    (h1 : s'.dev.img = applyTrace [] s'.dev.trace) (h2 : PackEnd fs fuel [] res s') :
    (∀ v, readVolume (fileDev s'.dev.img) ≠ .ok v) ∨
    HoldsTree (fileDev s'.dev.img) fs.readDir content := by
  have hz : ∀ {img : Bytes}, LowZero img 67584 → ∀ v, readVolume (fileDev img) ≠ .ok v :=
    fun hl => readVolume_zero (fun b hb => hl _ b (by decide) hb)
  cases h2 with
  | early _ h2 =>
    left
    rw [h1, h2]
    exact hz (LowZero.nil _)
  | data hS _ hT =>
    left
    rw [h1]
    exact hz (lowZero_data hS hb hT)
  | @desc D M rootW rootSize next recs n' T hS _ hok htr hT =>
    have hlow := lowZero_data hS hb (Torn.refl _)
    have hfull : s'.dev.trace = (planOps fs.pathToString D recs).flatMap (opWrites fs) ++
        [(32 * 2048, rootDesc 33 rootSize)] → HoldsTree (fileDev s'.dev.img) fs.readDir content := by
      intro htr
      apply holdsTree_of_at hS hf hok
      rw [h1, htr]
      exact pad_at (P := []) hS hb (by simp)
    rcases hT.single with rfl | rfl | ⟨m, rfl⟩
    · left
      rw [h1, htr, List.append_nil]
      exact hz hlow
    · right
      exact hfull htr
    · by_cases hm : 2048 ≤ m
      · right
        rw [List.take_of_length_le (by rw [rootDesc_length]; exact hm)] at htr
        exact hfull htr
      · left
        rw [h1, htr, applyTrace_append]
        apply readVolume_zero
        intro b hb'
        change (writeAt (applyTrace [] _) (32 * 2048) ((rootDesc 33 rootSize).take m))[67583]? = some b at hb'
        rw [writeAt_get] at hb'
        have hl : ((rootDesc 33 rootSize).take m).length ≤ 2047 := by
          rw [List.length_take, rootDesc_length]; omega
        split at hb'
        · exact hlow _ b (by decide) hb'
        · rw [if_neg (by decide), if_neg (by omega)] at hb'
          exact hlow _ b (by decide) hb'
  | pad hS hD hok htr hP _ =>
    right
    apply holdsTree_of_at hS hf hok
    rw [h1, htr]
    exact pad_at hS hb (torn_pad hP)

theorem pack_crash {fs : SourceFs} {faults : Faults} {fuel : Nat} {res : Res Unit} {s' : PackState ImgFile}
    {content : Path → Bytes} (hb : Bounded fs) (hf : FaithfulTo fs content)
    (h : createImage (fileEnv fs faults) fuel ⟨⟨[], []⟩, []⟩ = (res, s')) :
    (∀ v, readVolume (fileDev s'.dev.img) ≠ .ok v) ∨
    HoldsTree (fileDev s'.dev.img) fs.readDir content :=
  (pack_end fs faults fuel [] h).2.crash hb hf (pack_end fs faults fuel [] h).1

/-! ## Success on any device -/

theorem createP_of_success {σ : Type} {env : PackEnv σ} {fuel : Nat} {s s' : PackState σ}
    (h : createImage env fuel s = (.ok (), s')) :
    (createP env.readDir env.pathToString fuel).res = .ok () := by
  rw [createImage_eq] at h
  change ((createP env.readDir env.pathToString fuel).run env >>= fun _ =>
    padImage env >>= fun _ => PM.report .finishedPacking) _ = _ at h
  simp only [PM.bind_def, Pl.run] at h
  generalize createP env.readDir env.pathToString fuel = P at h ⊢
  rcases hr : runOps env P.ops s with ⟨r, s1⟩
  rw [hr] at h
  cases r with
  | ok u =>
    simp only [PM.lift] at h
    cases hp : P.res with
    | ok u => rfl
    | _ => rw [hp] at h; simp at h
  | _ => simp at h

theorem shape_of_success {σ : Type} {env : PackEnv σ} {fuel : Nat} {s s' : PackState σ}
    (h : createImage env fuel s = (.ok (), s')) :
    ∃ D M rootW rootSize next recs n',
      PlanShape env.readDir env.pathToString D M rootW rootSize next recs n' [] := by
  have hP := createP_of_success h
  rcases createP_inv env.readDir env.pathToString fuel with
    ⟨k1, k2⟩ | ⟨D, M, rootW, rootSize, next, recs, n', rest, hS, ⟨k1, rfl, k3, k4⟩ | ⟨k1, k2⟩⟩
  · exact absurd hP k2
  · exact ⟨D, M, rootW, rootSize, next, recs, n', hS⟩
  · exact absurd hP k1

end Xdvdfs
