import Verif.Proof.PackEnd
import Verif.Proof.PackTotal

/-!
# Progress reports of a successful pack
-/

namespace Xdvdfs

open TabWriter Spec Props

theorem perm_flatMap_cons {α β : Type} (f : α → β) (g : α → List β) (l : List α) :
    (l.flatMap (fun x => f x :: g x)).Perm (l.map f ++ l.flatMap g) := by
  induction l with
  | nil => exact .refl _
  | cons x l ih =>
    simp only [List.flatMap_cons, List.map_cons, List.cons_append]
    refine List.Perm.cons _ ((List.Perm.append_left _ ih).trans ?_)
    rw [← List.append_assoc, ← List.append_assoc]
    exact List.perm_append_comm.append_right _

theorem perm_flatMap_pointwise {α β : Type} {f g : α → List β} {l : List α}
    (h : ∀ x ∈ l, (f x).Perm (g x)) : (l.flatMap f).Perm (l.flatMap g) := by
  induction l with
  | nil => exact .refl _
  | cons x l ih =>
    simp only [List.flatMap_cons]
    exact (h x (by simp)).append (ih (fun y hy => h y (by simp [hy])))

/-- The sector recorded for a path. -/
def sectorIn (T : List (Path × Listing)) (p : Path) : Nat :=
  match T.find? (fun x => decide (x.1 = p)) with
  | some x => x.2.sector
  | none => 0

theorem sectorIn_of_mem {T : List (Path × Listing)} (hn : (T.map Prod.fst).Nodup) {p : Path} {l : Listing}
    (h : (p, l) ∈ T) : sectorIn T p = l.sector := by
  unfold sectorIn
  induction T with
  | nil => simp at h
  | cons x T ih =>
    rw [List.map_cons, List.nodup_cons] at hn
    rcases List.mem_cons.1 h with rfl | h
    · simp
    · have hx : x.1 ≠ p := fun he => hn.1 (by rw [he]; exact List.mem_map_of_mem (f := Prod.fst) h)
      rw [List.find?_cons_of_neg (by simpa using hx)]
      exact ih hn.2 h

theorem opReports_rec (pts : Path → Str) (x : Rec) :
    (opsRec pts x).flatMap opReports = .dirAdded (pts x.path) x.sector ::
      x.r.fileListing.map (fun l => .fileAdded (pts (x.path ++ [l.name])) l.sector) := by
  simp only [opsRec, List.flatMap_cons, opReports, List.singleton_append, List.nil_append]
  congr 1
  induction x.r.fileListing with
  | nil => rfl
  | cons l ls ih =>
    simp only [List.flatMap_cons, List.flatMap_append, ih, List.map_cons, opsEntry, opReports, fromBase]
    cases l.isDir <;> rfl

theorem reports_of_shape {rd : ReadDir} {pts : Path → Str} {D M rootW rootSize next recs n'}
    (h : PlanShape rd pts D M rootW rootSize next recs n' []) :
    ((recs.flatMap (opsRec pts)).flatMap opReports).Perm
      (D.map (fun x => .dirAdded (pts x.1) (sectorIn (placedAll rootSize recs) x.1)) ++
        (entryPaths D).map (fun q => .fileAdded (pts q) (sectorIn (placedAll rootSize recs) q))) := by
  obtain ⟨hT, _, hnd, hk⟩ := tables_ok h.walked h.tables
  have hu := h.paths_nodup
  have hkp := hT.keys_perm h.walked hnd hk
  rw [h.split, List.append_nil, List.map_map] at hkp
  have e1 : (recs.flatMap (opsRec pts)).flatMap opReports = recs.flatMap (fun x =>
      .dirAdded (pts x.path) x.sector ::
      x.r.fileListing.map (fun l => .fileAdded (pts (x.path ++ [l.name])) l.sector)) := by
    rw [List.flatMap_assoc]
    congr 1
    funext x
    exact opReports_rec pts x
  rw [e1]
  refine (perm_flatMap_cons _ _ recs).trans (List.Perm.append ?_ ?_)
  · have := hkp.map (fun p => Progress.dirAdded (pts p) (sectorIn (placedAll rootSize recs) p))
    rw [List.map_map, List.map_map] at this
    refine (List.Perm.of_eq (List.map_congr_left ?_)).trans this
    intro x hx
    obtain ⟨l, sz, h1, h2, h3, _⟩ := h.recPlace hx
    simp only [Function.comp]
    rw [sectorIn_of_mem hu h1, h3]
  · let F : Path → List Progress := fun p => match rd p with
      | .ok l => l.map (fun e => .fileAdded (pts (p ++ [e.name])) (sectorIn (placedAll rootSize recs) (p ++ [e.name])))
      | _ => []
    have h1 : (recs.flatMap (fun x => x.r.fileListing.map (fun l => Progress.fileAdded (pts (x.path ++ [l.name])) l.sector))).Perm
        (recs.flatMap (fun x => F x.path)) := by
      apply perm_flatMap_pointwise
      intro x hx
      obtain ⟨lst, k1, _, _⟩ := (h.recOK hx).built
      have hp := (h.listingNames hx k1).map (fun k : Str × Nat × Bool =>
        Progress.fileAdded (pts (x.path ++ [k.1])) (sectorIn (placedAll rootSize recs) (x.path ++ [k.1])))
      rw [List.map_map, List.map_map] at hp
      have hF : F x.path = lst.map ((fun k : Str × Nat × Bool => Progress.fileAdded (pts (x.path ++ [k.1]))
          (sectorIn (placedAll rootSize recs) (x.path ++ [k.1]))) ∘ fun e => itemKey (itemOf M x.path e)) := by
        simp only [F, k1]; rfl
      rw [hF]
      refine (List.Perm.of_eq (List.map_congr_left ?_)).trans hp
      intro l hl
      have hm : (x.path ++ [l.name], l) ∈ placedAll rootSize recs := by
        refine List.mem_cons_of_mem _ (List.mem_flatMap.2 ⟨x, hx, List.mem_map.2 ⟨l, hl, rfl⟩⟩)
      simp only [Function.comp, listKey]
      rw [sectorIn_of_mem hu hm]
    have h2 : (recs.flatMap (fun x => F x.path)).Perm (D.flatMap (fun x => F x.1)) := by
      have := hkp.flatMap_right F
      simpa only [List.flatMap_map, Function.comp] using this
    have h3 : D.flatMap (fun x => F x.1) = (entryPaths D).map (fun q =>
        Progress.fileAdded (pts q) (sectorIn (placedAll rootSize recs) q)) := by
      unfold entryPaths
      rw [List.map_flatMap]
      have : ∀ x ∈ D, F x.1 = (x.2.map (fun e => x.1 ++ [e.name])).map (fun q =>
          Progress.fileAdded (pts q) (sectorIn (placedAll rootSize recs) q)) := by
        intro x hx
        have := h.walked.readDir (p := x.1) (l := x.2) hx
        simp only [F, this, List.map_map]; rfl
      clear h1 h2
      generalize D = E at this
      induction E with
      | nil => rfl
      | cons x E ih =>
        simp only [List.flatMap_cons]
        rw [this x (by simp), ih (fun y hy => this y (by simp [hy]))]
    rw [← h3]
    exact h1.trans h2

theorem Walked.parentFirst {rd : ReadDir} {stack : List Path} {D : List (Path × List FileEntry)}
    (h : Walked rd stack D) : ∀ pre p l post, D = pre ++ (p, l) :: post →
      p ∈ stack ∨ ∃ q l' e, (q, l') ∈ pre ∧ e ∈ l' ∧ e.isDir = true ∧ p = q ++ [e.name] := by
  induction h with
  | nil => intro pre p l post h; simp at h
  | @cons d ds l D h1 h2 ih =>
    intro pre p l' post he
    cases pre with
    | nil =>
      simp only [List.nil_append, List.cons.injEq, Prod.mk.injEq] at he
      left; rw [← he.1.1]; simp
    | cons y pre =>
      simp only [List.cons_append, List.cons.injEq] at he
      obtain ⟨rfl, he⟩ := he
      rcases ih pre p l' post he with h | ⟨q, l2, e, g1, g2, g3, g4⟩
      · rcases List.mem_append.1 h with h | h
        · obtain ⟨e, hel, hd, rfl⟩ := mem_subdirPaths.1 (List.mem_reverse.1 h)
          exact .inr ⟨d, l, e, by simp, hel, hd, rfl⟩
        · left; simp [h]
      · exact .inr ⟨q, l2, e, by simp [g1], g2, g3, g4⟩

theorem runOps_reports {env : PackEnv σ} : ∀ {ops : List Op}, (∀ o ∈ ops, o.IsReport) → ∀ s : PackState σ,
    runOps env ops s = (.ok (), { s with log := s.log ++ ops.flatMap opReports }) := by
  intro ops
  induction ops with
  | nil => intro _ s; simp [runOps, PM.pure_def]
  | cons o ops ih =>
    intro h s
    cases o with
    | report p =>
      simp only [runOps, PM.bind_def, Op.run, PM.report]
      rw [ih (fun o ho => h o (by simp [ho]))]
      simp [opReports]
    | write off d => exact (h (.write off d) List.mem_cons_self).elim
    | copy p o n => exact (h (.copy p o n) List.mem_cons_self).elim

theorem dirTree_ok {env : PackEnv σ} {fuel : Nat} {s s' : PackState σ} {D : List (Path × List FileEntry)}
    (h : dirTree env fuel s = (.ok D, s')) :
    Walked env.readDir [[]] D ∧ s'.dev = s.dev ∧
      s'.log = s.log ++ D.map (fun x => .discoveredDirectory x.2.length) := by
  unfold dirTree at h
  rw [dirTreeLoop_eq] at h
  simp only [Pl.run, PM.bind_def, runOps_reports (dirTreeLoopP_reports _ _ _ _), PM.lift, Prod.mk.injEq] at h
  obtain ⟨h1, h2⟩ := h
  obtain ⟨D', e1, hW, hlen, hops⟩ := dirTreeLoopP_ok h1
  simp only [List.reverse_nil, List.nil_append] at e1
  subst e1
  refine ⟨hW, by rw [← h2], ?_⟩
  rw [← h2, hops]
  simp only [discovered]
  congr 1
  clear h1 h2 hW hlen hops
  induction D with
  | nil => rfl
  | cons x D ih => simp [opReports, ih]

end Xdvdfs
