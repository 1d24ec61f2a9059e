import Verif.Proof.PackTotal
import Verif.Spec.Refusals

/-!
# Where the errors of packing come from
-/

namespace Xdvdfs

open TabWriter Spec PM

theorem requiredSectors_not_err (n : Nat) (e : Err) : requiredSectors n ≠ .err e := by
  intro h
  unfold requiredSectors at h
  split at h
  · split at h
    · dsimp only at h
      split at h <;> split at h <;> cases h
    · cases h
  · cases h

theorem allocate_not_err (next n : Nat) (e : Err) : allocate next n ≠ .err e := by
  intro h
  unfold allocate at h
  rcases Res.bind_eq_err.1 h with h | ⟨k, _, h⟩
  · exact requiredSectors_not_err _ _ h
  · split at h <;> cases h

theorem sectorAlign_not_err (off n : Nat) (e : Err) : sectorAlign off n ≠ .err e := by
  intro h
  unfold sectorAlign at h
  rcases Res.bind_eq_err.1 h with h | ⟨k, _, h⟩
  · exact requiredSectors_not_err _ _ h
  · rcases Res.bind_eq_err.1 h with h | ⟨k', _, h⟩
    · exact requiredSectors_not_err _ _ h
    · split at h <;> cases h

theorem unwrap_not_err {α : Type} (x : Option α) (e : Err) : Res.unwrap x ≠ .err e := by
  cases x <;> intro h <;> cases h

theorem dirtabSize_not_err (w : TabWriter) (e : Err) : w.dirtabSize ≠ .err e := by
  unfold dirtabSize
  split
  · intro h; cases h
  · exact unwrap_not_err _ _

theorem addEntry_err {M : PathMap TabWriter} (hM : Sized M) {p : Path} {x : FileEntry} {w : TabWriter} {items : List Item}
    {T : ITree DirData} (hI : WInv w items T) {e : Err} (h : addEntry M p w x = .err e) :
    (e = .fileNameTooLong ∧ 255 < utf8Len x.name) ∨
    (e = .duplicateFileName ∧ ∃ y ∈ items, cmpIgnoreCase x.name y.name = .eq) ∨
    (e = .fileTooLarge ∧ x.isDir = false ∧ 2 ^ 32 ≤ x.len) := by
  by_cases hok : EntryOK M p x
  · rw [addEntry_eq hM hok] at h
    rcases addItem_spec hI (itemOf M p x) with ⟨w2, T2, h1, _⟩ | ⟨h1, h2⟩ | ⟨h1, h2⟩ | ⟨h1, _⟩
    · rw [h1] at h; cases h
    · rw [h1] at h; cases h; exact .inl ⟨rfl, h2⟩
    · rw [h1] at h; cases h; exact .inr (.inl ⟨rfl, h2⟩)
    · rw [h1] at h; cases h
  · unfold addEntry at h
    cases hd : x.isDir with
    | true =>
      rw [hd, if_pos rfl] at h
      cases hg : M.get (fromBase p x.name) with
      | none => rw [hg] at h; cases h
      | some w' =>
        exact absurd ⟨fun _ => by rw [show p ++ [x.name] = fromBase p x.name from rfl, hg]; rfl,
          fun h => by rw [hd] at h; cases h⟩ hok
    | false =>
      rw [hd, if_neg (by simp)] at h
      split at h
      · next hl => exact absurd ⟨fun h => (by rw [hd] at h; cases h), fun _ => hl⟩ hok
      · next hl => cases h; exact .inr (.inr ⟨rfl, rfl, by omega⟩)

theorem addEntries_err {M : PathMap TabWriter} (hM : Sized M) {p : Path} {e : Err} : ∀ {es done : List FileEntry} {w : TabWriter}
    {T : ITree DirData}, WInv w (done.map (itemOf M p)) T → addEntries M p w es = .err e → ListingDefect (done ++ es) e := by
  intro es
  induction es with
  | nil => intro done w T _ h; cases h
  | cons x es ih =>
    intro done w T hI h
    simp only [addEntries] at h
    rcases Res.bind_eq_err.1 h with h | ⟨w1, h1, h⟩
    · rcases addEntry_err hM hI h with ⟨rfl, k⟩ | ⟨rfl, y, hy, hc⟩ | ⟨rfl, k⟩
      · exact .inl ⟨rfl, x, by simp, k⟩
      · refine .inr (.inr (.inl ⟨rfl, ?_⟩))
        intro hd
        unfold DistinctNames at hd
        rw [List.map_append, List.pairwise_append] at hd
        obtain ⟨z, hz, rfl⟩ := List.mem_map.1 hy
        exact hd.2.2 z.name (List.mem_map_of_mem hz) x.name (by simp) ((cmp_eq_iff _ _).1 hc).symm
      · exact .inr (.inr (.inr ⟨rfl, x, by simp, k⟩))
    · rw [addEntry_eq hM (addEntry_ok h1)] at h1
      rcases addItem_spec hI (itemOf M p x) with ⟨w2, T2, k1, k2, _⟩ | ⟨k1, _⟩ | ⟨k1, _⟩ | ⟨k1, _⟩
      · rw [k1] at h1
        cases h1
        have := ih (done := done ++ [x]) (by simpa using k2) h
        simpa using this
      all_goals (rw [k1] at h1; cases h1)

theorem sizeLoop_err {A : Avl DirData} {e : Err} : ∀ (is : List Nat) (ns : List (AvlNode DirData)) (acc : Nat),
    is.map (fun i => A.tree[i]?) = ns.map some → sizeLoop A is acc = .err e →
    e = .stringEncoding ∧ ∃ n ∈ ns, ∀ b, encodeName n.data.name ≠ .ok b := by
  intro is
  induction is with
  | nil => intro ns acc _ h; cases h
  | cons i is ih =>
    intro ns acc hmap h
    cases ns with
    | nil => simp at hmap
    | cons n ns =>
      simp only [List.map_cons, List.cons.injEq] at hmap
      obtain ⟨hi, hmap⟩ := hmap
      simp only [sizeLoop, Avl.get, hi, Res.unwrap_some, Res.ok_bind] at h
      rcases Res.bind_eq_err.1 h with h | ⟨l, _, h⟩
      · unfold lenOnDisk at h
        rcases Res.bind_eq_err.1 h with h | ⟨_, _, h⟩
        · rcases (C03_name_encoding_fails_iff n.data.name).1 with ⟨b, hb⟩ | hb
          · rw [hb] at h; cases h
          · rw [hb] at h; cases h
            exact ⟨rfl, n, by simp, fun b h => by rw [hb] at h; cases h⟩
        · cases h
      · rcases Res.bind_eq_err.1 h with h | ⟨a, _, h⟩
        · exact absurd h (sectorAlign_not_err _ _ _)
        · split at h
          · obtain ⟨h1, m, hm, h2⟩ := ih ns _ hmap h
            exact ⟨h1, m, by simp [hm], h2⟩
          · cases h

theorem computeSize_err {w : TabWriter} {items : List Item} {T : ITree DirData} (h : WInv w items T) {e : Err}
    (hc : w.computeSize = .err e) : e = .stringEncoding ∧ ∃ it ∈ items, ∃ c ∈ it.name, ¬ InCp1252 c := by
  obtain ⟨ns, h1, h2⟩ := Rep.nodes h.wf.zip.rep
  unfold computeSize at hc
  rw [Avl.preorder_spec h.wf] at hc
  simp only [Res.ok_bind] at hc
  rcases Res.bind_eq_err.1 hc with hc | ⟨_, _, hc⟩
  · obtain ⟨h3, n, hn, h4⟩ := sizeLoop_err _ ns 0 h1 hc
    refine ⟨h3, ?_⟩
    have : n.data ∈ items.map itemData := h.preorder_perm.mem_iff.1 (by rw [← h2]; exact List.mem_map_of_mem hn)
    obtain ⟨it, hit, he⟩ := List.mem_map.1 this
    refine ⟨it, hit, ?_⟩
    rw [← he] at h4
    refine Classical.byContradiction fun hn => ?_
    obtain ⟨b, hb⟩ := (encodeName_iff it.name).2 ⟨fun c hc => Classical.byContradiction fun hi => hn ⟨c, hc, hi⟩,
      Nat.le_trans (utf8Len_ge _) (h.short it hit)⟩
    exact h4 b hb
  · cases hc

theorem addEntries_inv {M : PathMap TabWriter} (hM : Sized M) {p : Path} {l : List FileEntry} {w : TabWriter}
    (h : addEntries M p TabWriter.new l = .ok w) : ∃ T, WInv w (l.map (itemOf M p)) T := by
  rw [addEntries_eq hM (addEntries_ok h)] at h
  obtain ⟨T, hT⟩ := addItems_ok WInv.new h
  exact ⟨T, by simpa using hT⟩

theorem tablesLoop_err {e : Err} : ∀ {D : List (Path × List FileEntry)} {M : PathMap TabWriter}, Sized M →
    tablesLoop D M = .err e → ∃ x ∈ D, ListingDefect x.2 e := by
  intro D
  induction D with
  | nil => intro M _ h; cases h
  | cons y D ih =>
    obtain ⟨p, l⟩ := y
    intro M hM h
    simp only [tablesLoop] at h
    rcases Res.bind_eq_err.1 h with h | ⟨w, h1, h⟩
    · refine ⟨(p, l), by simp, ?_⟩
      simpa using addEntries_err hM (done := []) WInv.new h
    · obtain ⟨T, hI⟩ := addEntries_inv hM h1
      rcases Res.bind_eq_err.1 h with h | ⟨w', h2, h⟩
      · obtain ⟨rfl, it, hit, hc⟩ := computeSize_err hI h
        obtain ⟨x, hx, rfl⟩ := List.mem_map.1 hit
        exact ⟨(p, l), by simp, .inr (.inl ⟨rfl, x, hx, hc⟩)⟩
      · have hb : buildTable (l.map (itemOf M p)) = .ok w' := by
          unfold buildTable
          rw [← addEntries_eq hM (addEntries_ok h1), h1]
          exact h2
        have hM1 : Sized (M.insert p w') := by
          intro q v hq
          rw [PathMap.get_insert] at hq
          split at hq
          · cases hq; exact buildTable_size hb
          · exact hM q v hq
        obtain ⟨x, hx, k⟩ := ih hM1 h
        exact ⟨x, by simp [hx], k⟩

theorem linkOf_err {offsets : List Nat} {q : Option Nat} {e : Err} (h : linkOf offsets q = .err e) :
    e = .tooManyEntries ∧ ∃ o ∈ offsets, 262144 ≤ o := by
  cases q with
  | none => cases h
  | some c =>
    simp only [linkOf] at h
    rcases Res.bind_eq_err.1 h with h | ⟨o, ho, h⟩
    · exact absurd h (unwrap_not_err _ _)
    · split at h
      · cases h
      · cases h
        refine ⟨rfl, o, ?_, by omega⟩
        unfold Avl.vget at ho
        cases hc : offsets[c]? with
        | none => rw [hc] at ho; cases ho
        | some o' => rw [hc] at ho; cases ho; exact List.mem_of_getElem? hc

theorem mkEnts_err {offsets : List Nat} {e : Err} : ∀ {ns : List (AvlNode DirData)} {next : Nat},
    (∀ n ∈ ns, ∃ b, encodeName n.data.name = .ok b) → mkEnts offsets ns next = .err e →
    e = .tooManyEntries ∧ ∃ o ∈ offsets, 262144 ≤ o := by
  intro ns
  induction ns with
  | nil => intro next _ h; cases h
  | cons n ns ih =>
    intro next hn h
    obtain ⟨b, hb⟩ := hn n (by simp)
    simp only [mkEnts, hb, Res.ok_bind] at h
    rcases Res.bind_eq_err.1 h with h | ⟨_, _, h⟩
    · exact linkOf_err h
    rcases Res.bind_eq_err.1 h with h | ⟨_, _, h⟩
    · exact linkOf_err h
    rcases Res.bind_eq_err.1 h with h | ⟨_, _, h⟩
    · exact absurd h (allocate_not_err _ _ _)
    rcases Res.bind_eq_err.1 h with h | ⟨_, _, h⟩
    · exact ih (fun m hm => hn m (by simp [hm])) h
    · cases h

theorem diskRepr_err {items : List Item} {w : TabWriter} (hb : buildTable items = .ok w) {next : Nat} {e : Err}
    (h : w.diskRepr next = .err e) : e = .tooManyEntries ∧ ∃ n, w.dirtabSize = .ok n ∧ 262144 < n := by
  obtain ⟨w0, T, hI, hc, ht⟩ := buildTable_inv hb
  by_cases hne : w.table.tree = []
  · unfold diskRepr at h; rw [if_pos hne] at h; cases h
  · obtain ⟨A', T', lens, h1, h2, h3, h4, h5, h6, h7⟩ := diskRepr_eq hI.wf hc hne
    rw [h7] at h
    obtain ⟨hl1, hl2⟩ := lensOnDisk_forall h4
    rcases Res.bind_eq_err.1 h with h | ⟨_, _, h⟩
    · obtain ⟨rfl, o, ho, hge⟩ := mkEnts_err (lensOnDisk_names h4) h
      refine ⟨rfl, total 0 lens, ?_, ?_⟩
      · unfold dirtabSize; rw [if_neg hne, h5]; rfl
      · have := offs_lt_total (fun l hl => by have := hl2 l hl; omega) o ho
        omega
    · cases h

theorem Pl.bind_err_iff {x : Pl α} {f : α → Pl β} {e : Err} :
    (x >>= f).res = .err e ↔ x.res = .err e ∨ ∃ a, x.res = .ok a ∧ (f a).res = .err e := by
  obtain ⟨ops, res⟩ := x
  show (Pl.bind ⟨ops, res⟩ f).res = _ ↔ _
  cases res <;> simp [Pl.bind]

theorem packDirsP_err {e : Err} {pts : Path → Str} : ∀ {M2 : PathMap TabWriter} {ds : PathMap Nat} {next : Nat},
    (packDirsP pts M2 ds next).res = .err e → ∃ x ∈ M2, ∃ n, x.2.diskRepr n = .err e := by
  intro M2
  induction M2 with
  | nil => intro ds next h; cases h
  | cons y M2 ih =>
    obtain ⟨p, w⟩ := y
    intro ds next h
    simp only [packDirsP] at h
    rcases Pl.bind_err_iff.1 h with h | ⟨_, _, h⟩
    · exact absurd h (unwrap_not_err _ _)
    rcases Pl.bind_err_iff.1 h with h | ⟨_, _, h⟩
    · exact ⟨(p, w), by simp, next, h⟩
    rcases Pl.bind_err_iff.1 h with h | ⟨_, _, h⟩
    · cases h
    · obtain ⟨x, hx, k⟩ := ih h
      exact ⟨x, by simp [hx], k⟩

theorem dirTreeLoopP_err {rd : ReadDir} {e : Err} : ∀ {fuel stack out}, (∀ p ∈ stack, DirOf rd p) →
    (dirTreeLoopP rd fuel stack out).res = .err e → ∃ p, DirOf rd p ∧ rd p = .err e := by
  intro fuel
  induction fuel with
  | zero =>
    intro stack out _ h
    cases stack <;> cases h
  | succ fuel ih =>
    intro stack out hs h
    cases stack with
    | nil => cases h
    | cons d ds =>
      simp only [dirTreeLoopP] at h
      rcases Pl.bind_err_iff.1 h with h | ⟨l, hl, h⟩
      · exact ⟨d, hs d (by simp), h⟩
      rcases Pl.bind_err_iff.1 h with h | ⟨_, _, h⟩
      · cases h
      · refine ih ?_ h
        intro p hp
        rcases List.mem_append.1 hp with hp | hp
        · rw [List.mem_reverse] at hp
          unfold subdirPaths at hp
          obtain ⟨x, hx, rfl⟩ := List.mem_map.1 hp
          obtain ⟨h1, h2⟩ := List.mem_filter.1 hx
          exact .sub (hs d (by simp)) hl h1 h2
        · exact hs p (by simp [hp])

/-- Where the errors of the plan come from. -/
theorem createP_err {rd : ReadDir} {pts : Path → Str} {fuel : Nat} {e : Err} (h : (createP rd pts fuel).res = .err e) :
    (∃ p, DirOf rd p ∧ rd p = .err e) ∨ (∃ D, Walked rd [[]] D ∧ tablesLoop D.reverse [] = .err e) ∨
    (e = .tooManyEntries ∧ ∃ p l, DirOf rd p ∧ rd p = .ok l ∧ ¬ FewEntries l) := by
  unfold createP at h
  rcases Pl.bind_err_iff.1 h with h | ⟨D, hD, h⟩
  · exact .inl (dirTreeLoopP_err (by simpa using DirOf.root) h)
  obtain ⟨D', hD', hW, _, _⟩ := dirTreeLoopP_ok hD
  simp only [List.reverse_nil, List.nil_append] at hD'
  subst hD'
  rcases Pl.bind_err_iff.1 h with h | ⟨M, hM, h⟩
  · unfold createDirentTablesP at h
    rcases Pl.bind_err_iff.1 h with h | ⟨_, _, h⟩
    · exact .inr (.inl ⟨D, hW, h⟩)
    · rcases Pl.bind_err_iff.1 h with h | ⟨_, _, h⟩
      · cases h
      rcases Pl.bind_err_iff.1 h with h | ⟨_, _, h⟩
      · cases h
      · cases h
  have hM' : tablesLoop D.reverse [] = .ok M := by
    unfold createDirentTablesP at hM
    obtain ⟨M', k1, hM⟩ := Pl.bind_ok_iff.1 hM
    obtain ⟨_, _, hM⟩ := Pl.bind_ok_iff.1 hM
    obtain ⟨_, _, hM⟩ := Pl.bind_ok_iff.1 hM
    cases hM
    exact k1
  rcases Pl.bind_err_iff.1 h with h | ⟨_, _, h⟩
  · exact absurd h (unwrap_not_err _ _)
  rcases Pl.bind_err_iff.1 h with h | ⟨_, _, h⟩
  · exact absurd h (dirtabSize_not_err _ _)
  rcases Pl.bind_err_iff.1 h with h | ⟨_, _, h⟩
  · exact absurd h (allocate_not_err _ _ _)
  rcases Pl.bind_err_iff.1 h with h | ⟨_, _, h⟩
  · obtain ⟨x, hx, n, hn⟩ := packDirsP_err h
    obtain ⟨hT, _, _, hk⟩ := tables_ok hW hM'
    have hg := PathMap.get_of_mem hT.sorted hx
    obtain ⟨l, k1, _, k3⟩ := hT.built _ _ hg
    obtain ⟨rfl, m, hm, hlt⟩ := diskRepr_err k3 hn
    refine .inr (.inr ⟨rfl, x.1, l, (hk x.1).1 (by rw [hg]; rfl), k1, fun hf => ?_⟩)
    have := buildTable_small k3 hm (by
      rw [List.map_map]
      exact hf)
    omega
  · cases h

theorem PM.bind_err {x : PM σ α} {f : α → PM σ β} {s s' : PackState σ} {e : Err} (h : (x >>= f) s = (.err e, s')) :
    x s = (.err e, s') ∨ ∃ a s1, x s = (.ok a, s1) ∧ f a s1 = (.err e, s') := by
  rw [PM.bind_def] at h
  rcases hx : x s with ⟨r, s1⟩
  rw [hx] at h
  cases r with
  | ok a => exact .inr ⟨a, s1, rfl, h⟩
  | err e' => exact .inl (by cases h; rfl)
  | panic => cases h
  | hang => cases h

theorem createP_defect {rd : ReadDir} {pts : Path → Str} {fuel : Nat} {e : Err} (h : (createP rd pts fuel).res = .err e) :
    SourceDefect rd e := by
  rcases createP_err h with ⟨p, h1, h2⟩ | ⟨D, hW, h⟩ | ⟨rfl, p, l, h1, h2, h3⟩
  · exact ⟨p, h1, .inl h2⟩
  · obtain ⟨x, hx, k⟩ := tablesLoop_err (by intro p w hw; simp [PathMap.get] at hw) h
    rw [List.mem_reverse] at hx
    exact ⟨x.1, (hW.mem_iff x.1).1 (List.mem_map_of_mem hx), .inr ⟨x.2, hW.readDir hx, .inl k⟩⟩
  · exact ⟨p, h1, .inr ⟨l, h2, .inr ⟨rfl, h3⟩⟩⟩

/-- A plan that fails for another reason than a large directory does nothing but report. -/
theorem createP_early {rd : ReadDir} {pts : Path → Str} {fuel : Nat} {e : Err} (h : (createP rd pts fuel).res = .err e)
    (he : e ≠ .tooManyEntries) : ∀ o ∈ (createP rd pts fuel).ops, o.IsReport := by
  rcases createP_inv rd pts fuel with
    ⟨k1, k2⟩ | ⟨D, M, rootW, rootSize, next, recs, n', rest, hS, ⟨k1, rfl, k3, k4⟩ | ⟨k1, k2⟩⟩
  · exact k1
  · rw [k1] at h; cases h
  · exfalso
    rcases createP_err h with ⟨p, h1, h2⟩ | ⟨D', hW, h⟩ | ⟨rfl, _⟩
    · obtain ⟨x, hx, rfl⟩ := List.mem_map.1 ((hS.walked.mem_iff p).2 h1)
      rw [hS.walked.readDir (p := x.1) (l := x.2) hx] at h2
      cases h2
    · rw [← hS.walked.det hW, hS.tables] at h
      cases h
    · exact he rfl

theorem PlanShape.planFromSource {rd : ReadDir} {pts : Path → Str} {fuel : Nat} :
    ∀ o ∈ (createP rd pts fuel).ops, o.FromSource rd := by
  rcases createP_inv rd pts fuel with
    ⟨k1, k2⟩ | ⟨D, M, rootW, rootSize, next, recs, n', rest, hS, ⟨k1, rfl, k3, k4⟩ | ⟨k1, k2⟩⟩
  · intro o ho
    have := k1 o ho
    cases o with
    | report p => trivial
    | write off d => exact this.elim
    | copy p o n => exact this.elim
  · rw [k4]; exact hS.fromSource
  · intro o ho
    rw [k2] at ho
    exact hS.fromSource o (by simp [ho])

theorem runOps_err {env : PackEnv σ} {e : Err} : ∀ {ops : List Op} {s s' : PackState σ},
    (∀ o ∈ ops, o.FromSource env.readDir) → runOps env ops s = (.err e, s') → DeviceErr env e := by
  intro ops
  induction ops with
  | nil => intro s s' _ h; cases h
  | cons o os ih =>
    intro s s' hfs h
    simp only [runOps] at h
    rcases PM.bind_err h with h | ⟨_, s1, _, h⟩
    · cases o with
      | report p => cases h
      | write off d => exact .inl ⟨off, d, s.dev, congrArg Prod.fst h⟩
      | copy p o n =>
        rcases PM.bind_err h with h | ⟨_, _, _, h⟩
        · obtain ⟨q, x, h1, h2, rfl, rfl⟩ := hfs _ List.mem_cons_self
          exact .inr (.inl ⟨q, x, o, s.dev, h1, h2, congrArg Prod.fst h⟩)
        · cases h
    · exact ih (fun o ho => hfs o (List.mem_cons_of_mem _ ho)) h

theorem createImage_err {env : PackEnv σ} {fuel : Nat} {s s' : PackState σ} {e : Err}
    (h : createImage env fuel s = (.err e, s')) :
    ((createP env.readDir env.pathToString fuel).res = .err e ∧
      (createP env.readDir env.pathToString fuel).run env s = (.err e, s')) ∨ DeviceErr env e := by
  rw [createImage_eq] at h
  rcases PM.bind_err h with h | ⟨_, s1, _, h⟩
  · have h0 := h
    rcases PM.bind_err h with h | ⟨_, _, _, h⟩
    · exact .inr (runOps_err PlanShape.planFromSource h)
    · exact .inl ⟨congrArg Prod.fst h, h0⟩
  · rcases PM.bind_err h with h | ⟨_, _, _, h⟩
    · right
      unfold padImage at h
      rcases PM.bind_err h with h | ⟨n, s2, _, h⟩
      · exact .inr (.inr ⟨s1.dev, congrArg Prod.fst h⟩)
      · split at h
        · exact .inl ⟨_, _, s2.dev, congrArg Prod.fst h⟩
        · cases h
    · cases h

theorem DeviceWorks.no_err {env : PackEnv σ} (h : DeviceWorks env) (e : Err) : ¬ DeviceErr env e := by
  rintro (⟨off, d, s, k⟩ | ⟨p, x, o, s, k1, k2, k3⟩ | ⟨s, k⟩)
  · rw [h.1] at k; cases k
  · obtain ⟨n, hn⟩ := h.2.1 p x o s k1 k2
    rw [hn] at k3; cases k3
  · obtain ⟨n, hn⟩ := h.2.2 s
    rw [hn] at k; cases k

theorem runOps_reports_dev {env : PackEnv σ} : ∀ {ops : List Op}, (∀ o ∈ ops, o.IsReport) → ∀ s : PackState σ,
    (runOps env ops s).2.dev = s.dev := by
  intro ops
  induction ops with
  | nil => intro _ s; rfl
  | cons o os ih =>
    intro h s
    cases o with
    | report p =>
      show (runOps env os _).2.dev = _
      exact ih (fun o ho => h o (by simp [ho])) _
    | write off d => exact (h _ List.mem_cons_self).elim
    | copy p o n => exact (h _ List.mem_cons_self).elim

end Xdvdfs
