import Verif.Spec.WebUi

/-!
# Lemmas about the pages
-/

namespace Xdvdfs

open Spec

theorem runUi_append (d : PageDef S M J F D) (es fs : List (UiEvent M F D)) (s : UiSys S J) :
    runUi d (es ++ fs) s = match runUi d es s with
      | some (.ok s') => runUi d fs s'
      | other => other := by
  induction es generalizing s with
  | nil => rfl
  | cons e es ih =>
    simp only [List.cons_append, runUi]
    cases h : s.step d e with
    | none => rfl
    | some r => cases r with
      | ok s' => exact ih s'
      | err _ => rfl
      | panic => rfl
      | hang => rfl

/-- An invariant of the steps, where the state in which a button is clicked is known to be as required. -/
theorem happens_inv (d : PageDef S M J F D) (P : Button → UiSys S J → Prop) (Q : UiEvent M F D → Prop)
    (Inv : UiSys S J → Prop)
    (h0 : Inv (UiSys.init d))
    (hs : ∀ s e r, Inv s → Q e → (∀ b, e = .click b → P b s) → s.step d e = some r → ∃ s', r = .ok s' ∧ Inv s')
    (es : List (UiEvent M F D)) (r : Res (UiSys S J)) (hq : ∀ e ∈ es, Q e) (hc : ClicksWhen d P es)
    (h : Happens d es r) : ∃ s, r = .ok s ∧ Inv s := by
  suffices H : ∀ (before after : List (UiEvent M F D)) s, es = before ++ after → Happens d before (.ok s) → Inv s →
      ∀ r, runUi d after s = some r → ∃ s, r = .ok s ∧ Inv s from H [] es _ rfl rfl h0 r h
  intro before after
  induction after generalizing before with
  | nil =>
    intro s _ _ hi r hr
    simp only [runUi, Option.some.injEq] at hr
    exact ⟨s, hr.symm, hi⟩
  | cons e after ih =>
    intro s he hb hi r hr
    simp only [runUi] at hr
    cases hstep : s.step d e with
    | none => rw [hstep] at hr; simp at hr
    | some q =>
      obtain ⟨s', rfl, hi'⟩ := hs s e q hi (hq e (by rw [he]; simp))
        (fun b hb' => hc before b after s (by rw [he, hb']) hb) hstep
      rw [hstep] at hr
      refine ih (before ++ [e]) s' (by rw [he]; simp) ?_ hi' r hr
      simp only [Happens] at hb ⊢
      rw [runUi_append, hb]
      simp only [runUi, hstep]

/-! ## Pack -/

/-- What always holds of the page "Pack". -/
structure PackInv (alive : Prop) (s : UiSys (PackPage F D) (Picked F D × F)) : Prop where
  typed : 1 ≤ s.page.stage.rank → s.page.inputType.isSome
  given : 2 ≤ s.page.stage.rank → s.page.input.isSome
  idle : s.dialog.isSome → s.jobs = []
  dlg : ∀ b, s.dialog = some b → (∃ k, b = .input k ∧ 1 ≤ s.page.stage.rank) ∨ (b = .output .saveFile ∧ 2 ≤ s.page.stage.rank)
  busy : s.jobs ≠ [] → s.page.stage.isPacking ∧ ∃ i f, s.jobs = [(i, f)] ∧ s.page.input = some i ∧ s.page.output = some f
  free : alive → s.jobs = [] → s.page.stage.isPacking = false

/-- The pages "Pack" that can be drawn. -/
theorem packView_ok {fname : F → Str} {dname : D → Str} (hf : ∀ f, (fileName (fname f)).isSome)
    (hd : ∀ d, (fileName (dname d)).isSome) (p : PackPage F D) (h1 : 1 ≤ p.stage.rank → p.inputType.isSome) :
    ∃ v, p.view fname dname = .ok v ∧ (p.stage.isPacking = true → v.buttons = []) ∧
      (p.stage.isPacking = false → Button.inputType .directory ∈ v.buttons ∧ Button.inputType .file ∈ v.buttons) ∧
      (∀ b ∈ v.buttons, (∃ k, b = .inputType k) ∨ (∃ k, b = .input k ∧ 1 ≤ p.stage.rank) ∨
        (b = .output .saveFile ∧ 2 ≤ p.stage.rank)) ∧
      (∀ k, 1 ≤ p.stage.rank → p.stage.isPacking = false → p.inputType = some k → Button.input k.dialog ∈ v.buttons) ∧
      (2 ≤ p.stage.rank → p.stage.isPacking = false → Button.output .saveFile ∈ v.buttons) ∧
      v.done = p.progress ∧ v.total = p.count ∧ v.percent = percent p.progress p.count ∧
      v.error = p.stage.errorText := by
  have hi : ∃ l, p.inputButtons = Res.ok l ∧ (∀ b ∈ l, ∃ k, b = .input k ∧ 1 ≤ p.stage.rank) ∧
      (∀ k, 1 ≤ p.stage.rank → p.inputType = some k → Button.input k.dialog ∈ l) := by
    unfold PackPage.inputButtons
    by_cases hr : p.stage.rank ≥ PackStage.selectInput.rank
    · rw [if_pos hr]
      have := h1 hr
      cases ht : p.inputType with
      | none => rw [ht] at this; simp at this
      | some k => exact ⟨_, rfl, by intro b hb; exact ⟨_, List.mem_singleton.1 hb, hr⟩, by simp⟩
    · rw [if_neg hr]
      exact ⟨[], rfl, by simp, fun k h => absurd h hr⟩
  have ho : ∃ l, p.outputButtons fname dname = Res.ok l ∧ (∀ b ∈ l, b = .output .saveFile ∧ 2 ≤ p.stage.rank) ∧
      (2 ≤ p.stage.rank → Button.output .saveFile ∈ l) := by
    unfold PackPage.outputButtons
    by_cases hr : p.stage.rank ≥ PackStage.selectOutput.rank
    · rw [if_pos hr]
      cases hin : p.input with
      | none => exact ⟨_, rfl, by intro b hb; exact ⟨List.mem_singleton.1 hb, hr⟩, by simp⟩
      | some i =>
        have : ∃ n, suggestedName (pickedName fname dname i) (decide (p.inputType = some .directory)) = .ok n := by
          have : (fileName (pickedName fname dname i)).isSome := by
            cases i with
            | file f => exact hf f
            | dir d => exact hd d
          simp only [suggestedName]
          cases hn : fileName (pickedName fname dname i) with
          | none => rw [hn] at this; simp at this
          | some n => exact ⟨_, rfl⟩
        obtain ⟨n, hn⟩ := this
        refine ⟨[.output .saveFile], ?_, by intro b hb; exact ⟨List.mem_singleton.1 hb, hr⟩, by simp⟩
        simp only [hn, Res.bind]
    · rw [if_neg hr]
      exact ⟨[], rfl, by simp, fun h => absurd h hr⟩
  obtain ⟨li, hi1, hi2, hi3⟩ := hi
  obtain ⟨lo, ho1, ho2, ho3⟩ := ho
  refine ⟨{
      buttons := if p.stage.isPacking then [] else [.inputType .directory, .inputType .file] ++ li ++ lo
      percent := percent p.progress p.count
      done := p.progress
      total := p.count
      error := p.stage.errorText }, ?_, ?_, ?_, ?_, ?_, ?_⟩
  · simp only [PackPage.view, hi1, ho1, Res.bind]
  · intro h; simp [h]
  · intro h; simp [h]
  · intro b hb
    by_cases hp : p.stage.isPacking
    · simp [hp] at hb
    · simp only [hp, Bool.false_eq_true, if_false, List.mem_append, List.mem_cons, List.not_mem_nil, or_false] at hb
      rcases hb with ((h | h) | h) | h
      · exact .inl ⟨_, h⟩
      · exact .inl ⟨_, h⟩
      · exact .inr (.inl (hi2 b h))
      · exact .inr (.inr (ho2 b h))
  · intro k hr hp ht
    simp only [hp, Bool.false_eq_true, if_false, List.mem_append]
    exact .inl (.inr (hi3 k hr ht))
  · refine ⟨?_, rfl, rfl, rfl, rfl⟩
    intro hr hp
    simp only [hp, Bool.false_eq_true, if_false, List.mem_append]
    exact .inr (ho3 hr)

theorem packDeliver_ok {fname : F → Str} {dname : D → Str} (hf : ∀ f, (fileName (fname f)).isSome)
    (hd : ∀ d, (fileName (dname d)).isSome) {s : UiSys (PackPage F D) (Picked F D × F)} {m : PackMsg F D}
    {p : PackPage F D} {j : Option (Picked F D × F)} (hu : s.page.update m = .ok (p, j))
    (h1 : 1 ≤ p.stage.rank → p.inputType.isSome) :
    s.deliver (packDef fname dname) m = .ok { s with page := p, jobs := s.jobs ++ j.toList } := by
  obtain ⟨v, hv, _⟩ := packView_ok hf hd p h1
  simp only [UiSys.deliver, packDef, hu, Res.ok_bind, hv]

theorem packInv_step {alive : Prop} {fname : F → Str} {dname : D → Str} (hf : ∀ f, (fileName (fname f)).isSome)
    (hd : ∀ d, (fileName (dname d)).isSome) (s : UiSys (PackPage F D) (Picked F D × F))
    (e : UiEvent (PackMsg F D) F D) (r : Res (UiSys (PackPage F D) (Picked F D × F))) (hi : PackInv alive s)
    (ha : alive → ∀ k, e ≠ .dies k) (h : s.step (packDef fname dname) e = some r) : ∃ s', r = .ok s' ∧ PackInv alive s' := by
  have noj : s.dialog.isSome → s.jobs = [] := hi.idle
  cases e with
  | click b =>
    obtain ⟨v, hv, hb0, _, hb1, _⟩ := packView_ok hf hd s.page hi.typed
    have hv' : (packDef fname dname).view s.page = .ok v := hv
    simp only [UiSys.step, hv'] at h
    split at h
    · rename_i hc
      have hnp : s.page.stage.isPacking = false := by
        cases hp : s.page.stage.isPacking with
        | false => rfl
        | true => rw [hb0 hp] at hc; simp at hc
      have hj : s.jobs = [] := by
        cases hj : s.jobs with
        | nil => rfl
        | cons _ _ => have := (hi.busy (by simp [hj])).1; rw [hnp] at this; simp at this
      cases b with
      | inputType k =>
        simp only [Option.some.injEq] at h
        rw [show (packDef fname dname).typeMsg k = .setInputType k from rfl,
          packDeliver_ok hf hd (p := { s.page.reset 0 with inputType := some k, stage := .selectInput }) (j := none) rfl
            (by simp)] at h
        refine ⟨_, h.symm, ⟨by simp, by simp [PackStage.rank], ?_, ?_, ?_, fun _ _ => rfl⟩⟩
        · intro h; simp [hj]
        · intro b hb; simp [hc.1] at hb
        · intro h; simp [hj] at h
      | input d =>
        simp only [Option.some.injEq] at h
        refine ⟨_, h.symm, ⟨hi.typed, hi.given, fun _ => hj, ?_, fun h => absurd hj h, fun _ _ => hnp⟩⟩
        intro b hb
        simp only [Option.some.injEq] at hb
        rcases hb1 _ hc.2 with ⟨k, hk⟩ | ⟨k, hk, ht⟩ | ⟨hk, _⟩
        · cases hk
        · exact .inl ⟨d, hb.symm, ht⟩
        · cases hk
      | output d =>
        simp only [Option.some.injEq] at h
        refine ⟨_, h.symm, ⟨hi.typed, hi.given, fun _ => hj, ?_, fun h => absurd hj h, fun _ _ => hnp⟩⟩
        intro b hb
        simp only [Option.some.injEq] at hb
        rcases hb1 _ hc.2 with ⟨k, hk⟩ | ⟨k, hk, ht⟩ | ⟨hk, hr⟩
        · cases hk
        · cases hk
        · exact .inr ⟨by rw [← hb, hk], hr⟩
    · cases h
  | choose p =>
    simp only [UiSys.step] at h
    cases hdlg : s.dialog with
    | none => rw [hdlg] at h; simp at h
    | some b =>
      have hj := noj (by simp [hdlg])
      rw [hdlg] at h
      rcases hi.dlg b hdlg with ⟨k, rfl, hr⟩ | ⟨rfl, hr⟩
      · have ht := hi.typed hr
        simp only at h
        split at h
        · simp only [Option.some.injEq] at h
          rw [show (packDef fname dname).inputMsg p = .setInput p from rfl,
            packDeliver_ok hf hd (s := { s with dialog := none })
              (p := { s.page.reset 1 with input := some p, stage := .selectOutput }) (j := none) rfl
              (by intro _; simpa [PackPage.reset] using ht)] at h
          refine ⟨_, h.symm, ⟨?_, ?_, ?_, ?_, ?_, fun _ _ => rfl⟩⟩
          · intro _; simpa [PackPage.reset] using ht
          · intro _; simp
          · intro h; simp at h
          · intro b hb; simp at hb
          · intro h; simp [hj] at h
        · cases h
      · have ht := hi.typed (by omega)
        simp only at h
        split at h
        · rename_i hdel
          cases p with
          | dir d => simp [Dialog.delivers] at hdel
          | file f =>
            obtain ⟨i, hi'⟩ := Option.isSome_iff_exists.1 (hi.given hr)
            simp only [Option.some.injEq] at h
            rw [show (packDef fname dname).outputMsg (.file f) = .setOutput f from rfl,
              packDeliver_ok hf hd (s := { s with dialog := none })
                (p := { s.page.reset 2 with output := some f, stage := .packing .creatingFilesystem }) (j := some (i, f))
                (by simp [PackPage.update, PackPage.reset, hi']) (by intro _; simpa [PackPage.reset] using ht)] at h
            refine ⟨_, h.symm, ⟨?_, ?_, ?_, ?_, ?_, fun _ h => by simp [hj] at h⟩⟩
            · intro _; simpa [PackPage.reset] using ht
            · intro _; simpa [PackPage.reset] using hi.given hr
            · intro h; simp at h
            · intro b hb; simp at hb
            · intro _
              exact ⟨rfl, i, f, by simp [hj], by simp [PackPage.reset, hi'], rfl⟩
        · cases h
  | cancel =>
    simp only [UiSys.step] at h
    split at h
    · rename_i hs
      simp only [Option.some.injEq] at h
      refine ⟨_, h.symm, ⟨hi.typed, hi.given, fun h => by simp at h, fun b hb => by simp at hb, ?_, hi.free⟩⟩
      intro hne; exact absurd (noj hs) hne
    · cases h
  | report k m =>
    simp only [UiSys.step] at h
    split at h
    · rename_i hc
      have hne : s.jobs ≠ [] := by intro h0; rw [h0] at hc; simp at hc
      obtain ⟨hp, i, f, hjobs, hin, hout⟩ := hi.busy hne
      have hd0 : s.dialog = none := by
        cases hdl : s.dialog with
        | none => rfl
        | some b => exact absurd (noj (by simp [hdl])) hne
      have hr : 2 ≤ s.page.stage.rank := by
        cases hst : s.page.stage <;> rw [hst] at hp <;> simp_all [PackStage.isPacking, PackStage.rank]
      have ht := hi.typed (by omega)
      have key : ∃ p, s.page.update m = .ok (p, none) ∧ p.stage.isPacking = true ∧ p.inputType = s.page.inputType ∧
          p.input = s.page.input ∧ p.output = s.page.output := by
        cases m with
        | updateProgress q =>
          refine ⟨_, rfl, ?_, ?_, ?_, ?_⟩
          · cases q <;> first | exact hp | rfl
          all_goals cases q <;> rfl
        | changeState st =>
          cases st with
          | packing st => exact ⟨_, rfl, rfl, rfl, rfl, rfl⟩
          | _ => simp [packDef] at hc
        | _ => simp [packDef] at hc
      obtain ⟨p, hu, hp1, hp2, hp3, hp4⟩ := key
      simp only [Option.some.injEq] at h
      rw [packDeliver_ok hf hd hu (by intro _; rw [hp2]; exact ht)] at h
      refine ⟨_, h.symm, ⟨?_, ?_, ?_, ?_, ?_, fun _ h => by simp [hjobs] at h⟩⟩
      · intro _; simp only [hp2]; exact ht
      · intro _; simp only [hp3, hin]; rfl
      · intro h; simp [hd0] at h
      · intro b hb; simp [hd0] at hb
      · intro _
        exact ⟨hp1, i, f, by simp [hjobs], by simp [hp3, hin], by simp [hp4, hout]⟩
    · cases h
  | ends k m =>
    simp only [UiSys.step] at h
    split at h
    · rename_i hc
      have hne : s.jobs ≠ [] := by intro h0; rw [h0] at hc; simp at hc
      obtain ⟨hp, i, f, hjobs, hin, hout⟩ := hi.busy hne
      have hd0 : s.dialog = none := by
        cases hdl : s.dialog with
        | none => rfl
        | some b => exact absurd (noj (by simp [hdl])) hne
      have hr : 2 ≤ s.page.stage.rank := by
        cases hst : s.page.stage <;> rw [hst] at hp <;> simp_all [PackStage.isPacking, PackStage.rank]
      have ht := hi.typed (by omega)
      have hk : k = 0 := by have := hc.1; rw [hjobs] at this; simpa using this
      have key : ∃ p, s.page.update m = .ok (p, none) ∧ p.inputType = s.page.inputType ∧ p.input = s.page.input ∧
          p.stage.isPacking = false := by
        cases m with
        | changeState st =>
          cases st with
          | finished => exact ⟨_, rfl, rfl, rfl, rfl⟩
          | error _ => exact ⟨_, rfl, rfl, rfl, rfl⟩
          | _ => simp [packDef] at hc
        | _ => simp [packDef] at hc
      obtain ⟨p, hu, hp2, hp3, hp4⟩ := key
      simp only [Option.some.injEq] at h
      rw [packDeliver_ok hf hd (s := { s with jobs := s.jobs.eraseIdx k }) hu (by intro _; rw [hp2]; exact ht)] at h
      refine ⟨_, h.symm, ⟨?_, ?_, ?_, ?_, ?_, fun _ _ => hp4⟩⟩
      · intro _; simp only [hp2]; exact ht
      · intro _; simp only [hp3, hin]; rfl
      · intro h; simp [hd0] at h
      · intro b hb; simp [hd0] at hb
      · intro h; simp [hjobs, hk] at h
    · cases h
  | dies k =>
    simp only [UiSys.step] at h
    split at h
    · rename_i hc
      have hne : s.jobs ≠ [] := by intro h0; rw [h0] at hc; simp at hc
      obtain ⟨hp, i, f, hjobs, hin, hout⟩ := hi.busy hne
      have hk : k = 0 := by rw [hjobs] at hc; simpa using hc
      simp only [Option.some.injEq] at h
      refine ⟨_, h.symm, ⟨hi.typed, hi.given, ?_, hi.dlg, ?_, fun h => absurd rfl (ha h k)⟩⟩
      · intro _; simp [hjobs, hk]
      · intro h; simp [hjobs, hk] at h
    · cases h

/-! ## Compress -/

/-- What always holds of the page "Compress", if the user waits for its jobs. -/
structure CompInv (alive : Prop) (s : UiSys (CompPage F D) (Picked F D × D)) : Prop where
  typed : 1 ≤ s.page.stage.rank → s.page.inputType.isSome
  given : 2 ≤ s.page.stage.rank → s.page.input.isSome
  idle : s.dialog.isSome → s.jobs = []
  dlg : ∀ b, s.dialog = some b → (∃ k, b = .input k ∧ 1 ≤ s.page.stage.rank) ∨ (b = .output .openDirectory ∧ 2 ≤ s.page.stage.rank)
  busy : s.jobs ≠ [] → 3 ≤ s.page.stage.rank ∧ ∃ i f, s.jobs = [(i, f)] ∧ s.page.input = some i ∧ s.page.output = some f
  free : alive → s.jobs = [] → s.page.stage.isPacking = false

/-- The pages "Compress" that can be drawn. -/
theorem compView_ok (p : CompPage F D) (h1 : 1 ≤ p.stage.rank → p.inputType.isSome) :
    ∃ v, p.view = .ok v ∧ (p.stage.isPacking = true → v.buttons = []) ∧
      (p.stage.isPacking = false → Button.inputType .directory ∈ v.buttons ∧ Button.inputType .file ∈ v.buttons) ∧
      (∀ b ∈ v.buttons, (∃ k, b = .inputType k) ∨ (∃ k, b = .input k ∧ 1 ≤ p.stage.rank) ∨
        (b = .output .openDirectory ∧ 2 ≤ p.stage.rank)) ∧
      (∀ k, 1 ≤ p.stage.rank → p.stage.isPacking = false → p.inputType = some k → Button.input k.dialog ∈ v.buttons) ∧
      (2 ≤ p.stage.rank → p.stage.isPacking = false → Button.output .openDirectory ∈ v.buttons) ∧
      v.done = p.progress ∧ v.total = p.count ∧ v.percent = percent p.progress p.count ∧
      v.error = p.stage.errorText := by
  have hi : ∃ l, p.inputButtons = Res.ok l ∧ (∀ b ∈ l, ∃ k, b = .input k ∧ 1 ≤ p.stage.rank) ∧
      (∀ k, 1 ≤ p.stage.rank → p.inputType = some k → Button.input k.dialog ∈ l) := by
    unfold CompPage.inputButtons
    by_cases hr : p.stage.rank ≥ CompStage.selectInput.rank
    · rw [if_pos hr]
      have := h1 hr
      cases ht : p.inputType with
      | none => rw [ht] at this; simp at this
      | some k => exact ⟨_, rfl, by intro b hb; exact ⟨_, List.mem_singleton.1 hb, hr⟩, by simp⟩
    · rw [if_neg hr]
      exact ⟨[], rfl, by simp, fun k h => absurd h hr⟩
  have ho : (∀ b ∈ p.outputButtons, b = .output .openDirectory ∧ 2 ≤ p.stage.rank) ∧
      (2 ≤ p.stage.rank → Button.output .openDirectory ∈ p.outputButtons) := by
    unfold CompPage.outputButtons
    by_cases hr : p.stage.rank ≥ CompStage.selectOutput.rank
    · rw [if_pos hr]
      exact ⟨by intro b hb; exact ⟨List.mem_singleton.1 hb, hr⟩, by simp⟩
    · rw [if_neg hr]
      exact ⟨by simp, fun h => absurd h hr⟩
  obtain ⟨li, hi1, hi2, hi3⟩ := hi
  obtain ⟨ho2, ho3⟩ := ho
  refine ⟨{
      buttons := if p.stage.isPacking then [] else [.inputType .directory, .inputType .file] ++ li ++ p.outputButtons
      percent := percent p.progress p.count
      done := p.progress
      total := p.count
      error := p.stage.errorText }, ?_, ?_, ?_, ?_, ?_, ?_⟩
  · simp only [CompPage.view, hi1, Res.bind]
  · intro h; simp [h]
  · intro h; simp [h]
  · intro b hb
    by_cases hp : p.stage.isPacking
    · simp [hp] at hb
    · simp only [hp, Bool.false_eq_true, if_false, List.mem_append, List.mem_cons, List.not_mem_nil, or_false] at hb
      rcases hb with ((h | h) | h) | h
      · exact .inl ⟨_, h⟩
      · exact .inl ⟨_, h⟩
      · exact .inr (.inl (hi2 b h))
      · exact .inr (.inr (ho2 b h))
  · intro k hr hp ht
    simp only [hp, Bool.false_eq_true, if_false, List.mem_append]
    exact .inl (.inr (hi3 k hr ht))
  · refine ⟨?_, rfl, rfl, rfl, rfl⟩
    intro hr hp
    simp only [hp, Bool.false_eq_true, if_false, List.mem_append]
    exact .inr (ho3 hr)

theorem compDeliver_ok {s : UiSys (CompPage F D) (Picked F D × D)} {m : CompMsg F D}
    {p : CompPage F D} {j : Option (Picked F D × D)} (hu : s.page.update m = .ok (p, j))
    (h1 : 1 ≤ p.stage.rank → p.inputType.isSome) :
    s.deliver compDef m = .ok { s with page := p, jobs := s.jobs ++ j.toList } := by
  obtain ⟨v, hv, _⟩ := compView_ok p h1
  simp only [UiSys.deliver, compDef, hu, Res.ok_bind, hv]

theorem compInv_step {alive : Prop} (s : UiSys (CompPage F D) (Picked F D × D))
    (e : UiEvent (CompMsg F D) F D) (r : Res (UiSys (CompPage F D) (Picked F D × D))) (hi : CompInv alive s)
    (ha : alive → ∀ k, e ≠ .dies k) (hw : ∀ b, e = .click b → s.jobs = []) (h : s.step compDef e = some r) : ∃ s', r = .ok s' ∧ CompInv alive s' := by
  have noj : s.dialog.isSome → s.jobs = [] := hi.idle
  cases e with
  | click b =>
    obtain ⟨v, hv, hb0, _, hb1, _⟩ := compView_ok s.page hi.typed
    have hv' : compDef.view s.page = .ok v := hv
    simp only [UiSys.step, hv'] at h
    split at h
    · rename_i hc
      have hnp : s.page.stage.isPacking = false := by
        cases hp : s.page.stage.isPacking with
        | false => rfl
        | true => rw [hb0 hp] at hc; simp at hc
      have hj : s.jobs = [] := hw b rfl
      cases b with
      | inputType k =>
        simp only [Option.some.injEq] at h
        rw [show compDef.typeMsg k = .setInputType k from rfl,
          compDeliver_ok (p := { s.page.reset 0 with inputType := some k, stage := .selectInput }) (j := none) rfl
            (by simp)] at h
        refine ⟨_, h.symm, ⟨by simp, by simp [CompStage.rank], ?_, ?_, ?_, fun _ _ => rfl⟩⟩
        · intro h; simp [hj]
        · intro b hb; simp [hc.1] at hb
        · intro h; simp [hj] at h
      | input d =>
        simp only [Option.some.injEq] at h
        refine ⟨_, h.symm, ⟨hi.typed, hi.given, fun _ => hj, ?_, fun h => absurd hj h, fun _ _ => hnp⟩⟩
        intro b hb
        simp only [Option.some.injEq] at hb
        rcases hb1 _ hc.2 with ⟨k, hk⟩ | ⟨k, hk, ht⟩ | ⟨hk, _⟩
        · cases hk
        · exact .inl ⟨d, hb.symm, ht⟩
        · cases hk
      | output d =>
        simp only [Option.some.injEq] at h
        refine ⟨_, h.symm, ⟨hi.typed, hi.given, fun _ => hj, ?_, fun h => absurd hj h, fun _ _ => hnp⟩⟩
        intro b hb
        simp only [Option.some.injEq] at hb
        rcases hb1 _ hc.2 with ⟨k, hk⟩ | ⟨k, hk, ht⟩ | ⟨hk, hr⟩
        · cases hk
        · cases hk
        · exact .inr ⟨by rw [← hb, hk], hr⟩
    · cases h
  | choose p =>
    simp only [UiSys.step] at h
    cases hdlg : s.dialog with
    | none => rw [hdlg] at h; simp at h
    | some b =>
      have hj := noj (by simp [hdlg])
      rw [hdlg] at h
      rcases hi.dlg b hdlg with ⟨k, rfl, hr⟩ | ⟨rfl, hr⟩
      · have ht := hi.typed hr
        simp only at h
        split at h
        · simp only [Option.some.injEq] at h
          rw [show compDef.inputMsg p = .setInput p from rfl,
            compDeliver_ok (s := { s with dialog := none })
              (p := { s.page.reset 1 with input := some p, stage := .selectOutput }) (j := none) rfl
              (by intro _; simpa [CompPage.reset] using ht)] at h
          refine ⟨_, h.symm, ⟨?_, ?_, ?_, ?_, ?_, fun _ _ => rfl⟩⟩
          · intro _; simpa [CompPage.reset] using ht
          · intro _; simp
          · intro h; simp at h
          · intro b hb; simp at hb
          · intro h; simp [hj] at h
        · cases h
      · have ht := hi.typed (by omega)
        simp only at h
        split at h
        · rename_i hdel
          cases p with
          | file d => simp [Dialog.delivers] at hdel
          | dir f =>
            obtain ⟨i, hi'⟩ := Option.isSome_iff_exists.1 (hi.given hr)
            simp only [Option.some.injEq] at h
            rw [show compDef.outputMsg (.dir f) = .setOutput f from rfl,
              compDeliver_ok (s := { s with dialog := none })
                (p := { s.page.reset 2 with output := some f, stage := .packing .creatingFilesystem }) (j := some (i, f))
                (by simp [CompPage.update, CompPage.reset, hi']) (by intro _; simpa [CompPage.reset] using ht)] at h
            refine ⟨_, h.symm, ⟨?_, ?_, ?_, ?_, ?_, fun _ h => by simp [hj] at h⟩⟩
            · intro _; simpa [CompPage.reset] using ht
            · intro _; simpa [CompPage.reset] using hi.given hr
            · intro h; simp at h
            · intro b hb; simp at hb
            · intro _
              exact ⟨by simp [CompStage.rank], i, f, by simp [hj], by simp [CompPage.reset, hi'], rfl⟩
        · cases h
  | cancel =>
    simp only [UiSys.step] at h
    split at h
    · rename_i hs
      simp only [Option.some.injEq] at h
      refine ⟨_, h.symm, ⟨hi.typed, hi.given, fun h => by simp at h, fun b hb => by simp at hb, ?_, hi.free⟩⟩
      intro hne; exact absurd (noj hs) hne
    · cases h
  | report k m =>
    simp only [UiSys.step] at h
    split at h
    · rename_i hc
      have hne : s.jobs ≠ [] := by intro h0; rw [h0] at hc; simp at hc
      obtain ⟨hp, i, f, hjobs, hin, hout⟩ := hi.busy hne
      have hd0 : s.dialog = none := by
        cases hdl : s.dialog with
        | none => rfl
        | some b => exact absurd (noj (by simp [hdl])) hne
      have ht := hi.typed (by omega)
      have key : ∃ p, s.page.update m = .ok (p, none) ∧ 3 ≤ p.stage.rank ∧ p.inputType = s.page.inputType ∧
          p.input = s.page.input ∧ p.output = s.page.output := by
        cases m with
        | updateProgress q =>
          refine ⟨_, rfl, ?_, ?_, ?_, ?_⟩
          · cases q <;> first | exact hp | simp [CompPage.report, CompStage.rank]
          all_goals cases q <;> rfl
        | updateCompression q =>
          refine ⟨_, rfl, ?_, ?_, ?_, ?_⟩
          · cases q <;> exact hp
          all_goals cases q <;> rfl
        | changeState st =>
          cases st with
          | packing st => exact ⟨_, rfl, by simp [CompStage.rank], rfl, rfl, rfl⟩
          | compressing => exact ⟨_, rfl, by simp [CompStage.rank], rfl, rfl, rfl⟩
          | _ => simp [compDef] at hc
        | _ => simp [compDef] at hc
      obtain ⟨p, hu, hp1, hp2, hp3, hp4⟩ := key
      simp only [Option.some.injEq] at h
      rw [compDeliver_ok hu (by intro _; rw [hp2]; exact ht)] at h
      refine ⟨_, h.symm, ⟨?_, ?_, ?_, ?_, ?_, fun _ h => by simp [hjobs] at h⟩⟩
      · intro _; simp only [hp2]; exact ht
      · intro _; simp only [hp3, hin]; rfl
      · intro h; simp [hd0] at h
      · intro b hb; simp [hd0] at hb
      · intro _
        exact ⟨hp1, i, f, by simp [hjobs], by simp [hp3, hin], by simp [hp4, hout]⟩
    · cases h
  | ends k m =>
    simp only [UiSys.step] at h
    split at h
    · rename_i hc
      have hne : s.jobs ≠ [] := by intro h0; rw [h0] at hc; simp at hc
      obtain ⟨hp, i, f, hjobs, hin, hout⟩ := hi.busy hne
      have hd0 : s.dialog = none := by
        cases hdl : s.dialog with
        | none => rfl
        | some b => exact absurd (noj (by simp [hdl])) hne
      have ht := hi.typed (by omega)
      have hk : k = 0 := by have := hc.1; rw [hjobs] at this; simpa using this
      have key : ∃ p, s.page.update m = .ok (p, none) ∧ p.inputType = s.page.inputType ∧ p.input = s.page.input ∧
          p.stage.isPacking = false := by
        cases m with
        | changeState st =>
          cases st with
          | finished => exact ⟨_, rfl, rfl, rfl, rfl⟩
          | error _ => exact ⟨_, rfl, rfl, rfl, rfl⟩
          | _ => simp [compDef] at hc
        | _ => simp [compDef] at hc
      obtain ⟨p, hu, hp2, hp3, hp4⟩ := key
      simp only [Option.some.injEq] at h
      rw [compDeliver_ok (s := { s with jobs := s.jobs.eraseIdx k }) hu (by intro _; rw [hp2]; exact ht)] at h
      refine ⟨_, h.symm, ⟨?_, ?_, ?_, ?_, ?_, fun _ _ => hp4⟩⟩
      · intro _; simp only [hp2]; exact ht
      · intro _; simp only [hp3, hin]; rfl
      · intro h; simp [hd0] at h
      · intro b hb; simp [hd0] at hb
      · intro h; simp [hjobs, hk] at h
    · cases h
  | dies k =>
    simp only [UiSys.step] at h
    split at h
    · rename_i hc
      have hne : s.jobs ≠ [] := by intro h0; rw [h0] at hc; simp at hc
      obtain ⟨hp, i, f, hjobs, hin, hout⟩ := hi.busy hne
      have hk : k = 0 := by rw [hjobs] at hc; simpa using hc
      simp only [Option.some.injEq] at h
      refine ⟨_, h.symm, ⟨hi.typed, hi.given, ?_, hi.dlg, ?_, fun h => absurd rfl (ha h k)⟩⟩
      · intro _; simp [hjobs, hk]
      · intro h; simp [hjobs, hk] at h
    · cases h

/-! ## Unpack -/

/-- An invariant of the steps that do not end the page. -/
theorem happens_ok (d : PageDef S M J F D) (Q : UiEvent M F D → Prop) (Inv : UiSys S J → Prop)
    (h0 : Inv (UiSys.init d))
    (hs : ∀ s e s', Inv s → Q e → s.step d e = some (.ok s') → Inv s')
    (es : List (UiEvent M F D)) (s : UiSys S J) (hq : ∀ e ∈ es, Q e) (h : Happens d es (.ok s)) : Inv s := by
  suffices H : ∀ (es : List (UiEvent M F D)) s0 s, (∀ e ∈ es, Q e) → Inv s0 → runUi d es s0 = some (.ok s) → Inv s from
    H es _ s hq h0 h
  intro es
  induction es with
  | nil =>
    intro s0 s _ hi h
    simp only [runUi, Option.some.injEq, Res.ok.injEq] at h
    rw [← h]; exact hi
  | cons e es ih =>
    intro s0 s hq hi h
    simp only [runUi] at h
    cases hstep : s0.step d e with
    | none => rw [hstep] at h; simp at h
    | some q =>
      rw [hstep] at h
      cases q with
      | ok s1 => exact ih s1 s (fun e he => hq e (by simp [he])) (hs s0 e s1 hi (hq e (by simp)) hstep) h
      | err _ => simp at h
      | panic => simp at h
      | hang => simp at h

/-- What always holds of the page "Unpack". -/
structure UnpackInv (alive : Prop) (s : UiSys (UnpackPage F D) (F × D)) : Prop where
  idle : s.dialog.isSome → s.jobs = [] ∧ s.page.stage ≠ .unpacking
  dlg : ∀ b, s.dialog = some b → b = .input .openFile ∨ (b = .output .openDirectory ∧ 1 ≤ s.page.stage.rank)
  given : s.page.stage = .selectOutput → s.page.input.isSome
  busy : s.jobs ≠ [] → s.page.stage = .unpacking ∧ ∃ f d, s.jobs = [(f, d)] ∧ s.page.output = some d
  free : alive → s.jobs = [] → s.page.stage ≠ .unpacking

theorem unpackDeliver (s : UiSys (UnpackPage F D) (F × D)) (m : UnpackMsg F D) :
    s.deliver unpackDef m = (s.page.update m).bind
      fun x => .ok { s with page := x.1, jobs := s.jobs ++ x.2.toList } := by
  simp only [UiSys.deliver]
  show (s.page.update m).bind _ = _
  cases s.page.update m <;> rfl

theorem unpackButtons (p : UnpackPage F D) (v : Shown) (h : p.view = .ok v) (b : Button) (hb : b ∈ v.buttons) :
    p.stage ≠ .unpacking ∧ (b = .input .openFile ∨ (b = .output .openDirectory ∧ 1 ≤ p.stage.rank)) := by
  simp only [UnpackPage.view, Res.ok.injEq] at h
  rw [← h] at hb
  simp only at hb
  by_cases hu : p.stage = .unpacking
  · simp [hu] at hb
  · refine ⟨hu, ?_⟩
    rw [if_neg hu] at hb
    rcases List.mem_cons.1 hb with h | h
    · exact .inl h
    · by_cases hr : p.stage.rank ≥ UnpackStage.selectOutput.rank
      · rw [if_pos hr] at h
        exact .inr ⟨List.mem_singleton.1 h, hr⟩
      · rw [if_neg hr] at h
        simp at h

theorem unpackInv_step {alive : Prop} (s : UiSys (UnpackPage F D) (F × D)) (e : UiEvent (UnpackMsg F D) F D)
    (s' : UiSys (UnpackPage F D) (F × D)) (hi : UnpackInv alive s) (ha : alive → ∀ k, e ≠ .dies k)
    (h : s.step unpackDef e = some (.ok s')) : UnpackInv alive s' := by
  cases e with
  | click b =>
    simp only [UiSys.step] at h
    cases hv : unpackDef.view s.page with
    | ok v =>
      rw [hv] at h
      simp only at h
      split at h
      · rename_i hc
        obtain ⟨hnu, hb⟩ := unpackButtons s.page v hv b hc.2
        have hj : s.jobs = [] := by
          cases hj : s.jobs with
          | nil => rfl
          | cons _ _ => exact absurd (hi.busy (by simp [hj])).1 hnu
        have h' : { s with dialog := some b } = s' := by
          rcases hb with rfl | ⟨rfl, _⟩ <;> simpa using h
        rw [← h']
        refine ⟨fun _ => ⟨hj, hnu⟩, ?_, hi.given, hi.busy, hi.free⟩
        intro b' hb'
        simp only [Option.some.injEq] at hb'
        rw [← hb']; exact hb
      · cases h
    | err _ => rw [hv] at h; simp at h
    | panic => rw [hv] at h; simp at h
    | hang => rw [hv] at h; simp at h
  | choose p =>
    simp only [UiSys.step] at h
    cases hdlg : s.dialog with
    | none => rw [hdlg] at h; simp at h
    | some b =>
      obtain ⟨hj, hnu⟩ := hi.idle (by simp [hdlg])
      rw [hdlg] at h
      rcases hi.dlg b hdlg with rfl | ⟨rfl, hr⟩
      · simp only at h
        split at h
        · rename_i hdel
          cases p with
          | dir d => simp [Dialog.delivers] at hdel
          | file f =>
            simp only [Option.some.injEq, unpackDeliver] at h
            rw [show (unpackDef (F := F) (D := D)).inputMsg (.file f) = .setInput (.file f) from rfl] at h
            simp only [UnpackPage.update, Res.bind, Res.ok.injEq] at h
            rw [← h]
            refine ⟨fun h => by simp at h, fun b h => by simp at h, fun _ => rfl, fun h => by simp [hj] at h,
              fun _ _ => by simp⟩
        · cases h
      · simp only at h
        split at h
        · rename_i hdel
          cases p with
          | file f => simp [Dialog.delivers] at hdel
          | dir d =>
            simp only [Option.some.injEq, unpackDeliver] at h
            rw [show (unpackDef (F := F) (D := D)).outputMsg (.dir d) = .setOutput d from rfl] at h
            cases hin : s.page.input with
            | none =>
              simp [UnpackPage.update, UnpackPage.reset, hin, Res.bind] at h
            | some f =>
              simp only [UnpackPage.update, UnpackPage.reset, hin, Res.bind] at h
              simp only [if_neg (by decide : ¬ (2 : Nat) = 0), Res.ok.injEq] at h
              rw [← h]
              refine ⟨fun h => by simp at h, fun b h => by simp at h, fun h => by simp at h, ?_, ?_⟩
              · intro _
                exact ⟨rfl, f, d, by simp [hj], rfl⟩
              · intro _ h; simp [hj] at h
        · cases h
  | cancel =>
    simp only [UiSys.step] at h
    split at h
    · simp only [Option.some.injEq, Res.ok.injEq] at h
      rw [← h]
      exact ⟨fun h => by simp at h, fun b h => by simp at h, hi.given, hi.busy, hi.free⟩
    · cases h
  | report k m =>
    simp only [UiSys.step] at h
    split at h
    · rename_i hc
      have hne : s.jobs ≠ [] := by intro h0; rw [h0] at hc; simp at hc
      obtain ⟨hst, f, d, hjobs, hout⟩ := hi.busy hne
      have hd0 : s.dialog = none := by
        cases hdl : s.dialog with
        | none => rfl
        | some b => exact absurd (hi.idle (by simp [hdl])).1 hne
      have key : ∃ p, s.page.update m = .ok (p, none) ∧ p.stage = .unpacking ∧ p.output = s.page.output := by
        cases m with
        | updateProgress q =>
          refine ⟨_, rfl, ?_, ?_⟩
          · cases q <;> exact hst
          · cases q <;> rfl
        | changeState st =>
          cases st with
          | unpacking => exact ⟨_, rfl, rfl, rfl⟩
          | _ => simp [unpackDef] at hc
        | _ => simp [unpackDef] at hc
      obtain ⟨p, hu, hp1, hp2⟩ := key
      simp only [Option.some.injEq, unpackDeliver, hu, Res.bind, Res.ok.injEq] at h
      rw [← h]
      refine ⟨fun h => by simp [hd0] at h, fun b h => by simp [hd0] at h, fun h => by simp [hp1] at h, ?_, ?_⟩
      · intro _
        exact ⟨hp1, f, d, by simp [hjobs], by simp [hp2, hout]⟩
      · intro _ h; simp [hjobs] at h
    · cases h
  | ends k m =>
    simp only [UiSys.step] at h
    split at h
    · rename_i hc
      have hne : s.jobs ≠ [] := by intro h0; rw [h0] at hc; simp at hc
      obtain ⟨hst, f, d, hjobs, hout⟩ := hi.busy hne
      have hk : k = 0 := by have := hc.1; rw [hjobs] at this; simpa using this
      have hd0 : s.dialog = none := by
        cases hdl : s.dialog with
        | none => rfl
        | some b => exact absurd (hi.idle (by simp [hdl])).1 hne
      have key : ∃ p, s.page.update m = .ok (p, none) ∧ p.stage ≠ .unpacking ∧ p.stage ≠ .selectOutput := by
        cases m with
        | changeState st =>
          cases st with
          | finished => exact ⟨_, rfl, by simp, by simp⟩
          | error _ => exact ⟨_, rfl, by simp, by simp⟩
          | _ => simp [unpackDef] at hc
        | _ => simp [unpackDef] at hc
      obtain ⟨p, hu, hp1, hp2⟩ := key
      simp only [Option.some.injEq, unpackDeliver, hu, Res.bind, Res.ok.injEq] at h
      rw [← h]
      refine ⟨fun h => by simp [hd0] at h, fun b h => by simp [hd0] at h, fun h => absurd h hp2, ?_, fun _ _ => hp1⟩
      intro h; simp [hjobs, hk] at h
    · cases h
  | dies k =>
    simp only [UiSys.step] at h
    split at h
    · rename_i hc
      have hne : s.jobs ≠ [] := by intro h0; rw [h0] at hc; simp at hc
      obtain ⟨hst, f, d, hjobs, hout⟩ := hi.busy hne
      have hk : k = 0 := by rw [hjobs] at hc; simpa using hc
      have hd0 : s.dialog = none := by
        cases hdl : s.dialog with
        | none => rfl
        | some b => exact absurd (hi.idle (by simp [hdl])).1 hne
      simp only [Option.some.injEq, Res.ok.injEq] at h
      rw [← h]
      refine ⟨fun h => by simp [hd0] at h, fun b h => by simp [hd0] at h, hi.given, ?_, fun h => absurd rfl (ha h k)⟩
      intro h; simp [hjobs, hk] at h
    · cases h

/-- The invariant for a user who opens the dialog for the output only if an image is selected. -/
theorem unpackSafe_step (s : UiSys (UnpackPage F D) (F × D)) (e : UiEvent (UnpackMsg F D) F D)
    (r : Res (UiSys (UnpackPage F D) (F × D)))
    (hi : UnpackInv False s ∧ ∀ k, s.dialog = some (.output k) → s.page.input.isSome)
    (hw : ∀ b, e = .click b → (∃ k, b = .output k) → s.page.input.isSome)
    (h : s.step unpackDef e = some r) :
    ∃ s', r = .ok s' ∧ (UnpackInv False s' ∧ ∀ k, s'.dialog = some (.output k) → s'.page.input.isSome) := by
  obtain ⟨hi, ho⟩ := hi
  have done : ∀ s', r = .ok s' → (∀ k, s'.dialog = some (.output k) → s'.page.input.isSome) →
      ∃ s', r = .ok s' ∧ (UnpackInv False s' ∧ ∀ k, s'.dialog = some (.output k) → s'.page.input.isSome) :=
    fun s' hr hs => ⟨s', hr, unpackInv_step s e s' hi (fun h => h.elim) (hr ▸ h), hs⟩
  cases e with
  | click b =>
    simp only [UiSys.step] at h
    cases hv : unpackDef.view s.page with
    | ok v =>
      rw [hv] at h
      simp only at h
      split at h
      · rename_i hc
        obtain ⟨hnu, hb⟩ := unpackButtons s.page v hv b hc.2
        have h' : .ok { s with dialog := some b } = r := by
          rcases hb with rfl | ⟨rfl, _⟩ <;> simpa using h
        refine done _ h'.symm ?_
        intro k hk
        simp only [Option.some.injEq] at hk
        exact hw b rfl ⟨k, hk⟩
      · cases h
    | err _ => rw [hv] at h; simp at h
    | panic => rw [hv] at h; simp at h
    | hang => rw [hv] at h; simp at h
  | choose p =>
    simp only [UiSys.step] at h
    cases hdlg : s.dialog with
    | none => rw [hdlg] at h; simp at h
    | some b =>
      rw [hdlg] at h
      rcases hi.dlg b hdlg with rfl | ⟨rfl, hr⟩
      · simp only at h
        split at h
        · rename_i hdel
          cases p with
          | dir d => simp [Dialog.delivers] at hdel
          | file f =>
            simp only [Option.some.injEq, unpackDeliver] at h
            rw [show (unpackDef (F := F) (D := D)).inputMsg (.file f) = .setInput (.file f) from rfl] at h
            simp only [UnpackPage.update, Res.bind] at h
            exact done _ h.symm (fun k hk => by simp at hk)
        · cases h
      · simp only at h
        split at h
        · rename_i hdel
          cases p with
          | file f => simp [Dialog.delivers] at hdel
          | dir d =>
            simp only [Option.some.injEq, unpackDeliver] at h
            rw [show (unpackDef (F := F) (D := D)).outputMsg (.dir d) = .setOutput d from rfl] at h
            obtain ⟨f, hin⟩ := Option.isSome_iff_exists.1 (ho _ hdlg)
            simp only [UnpackPage.update, UnpackPage.reset, hin, Res.bind] at h
            simp only [if_neg (by decide : ¬ (2 : Nat) = 0)] at h
            exact done _ h.symm (fun k hk => by simp at hk)
        · cases h
  | cancel =>
    simp only [UiSys.step] at h
    split at h
    · simp only [Option.some.injEq] at h
      exact done _ h.symm (fun k hk => by simp at hk)
    · cases h
  | report k m =>
    simp only [UiSys.step] at h
    split at h
    · rename_i hc
      have hne : s.jobs ≠ [] := by intro h0; rw [h0] at hc; simp at hc
      have hd0 : s.dialog = none := by
        cases hdl : s.dialog with
        | none => rfl
        | some b => exact absurd (hi.idle (by simp [hdl])).1 hne
      have key : ∃ p, s.page.update m = .ok (p, none) := by
        cases m with
        | updateProgress q => exact ⟨_, rfl⟩
        | changeState st => exact ⟨_, rfl⟩
        | _ => simp [unpackDef] at hc
      obtain ⟨p, hu⟩ := key
      simp only [Option.some.injEq, unpackDeliver, hu, Res.bind] at h
      exact done _ h.symm (fun k hk => by simp [hd0] at hk)
    · cases h
  | ends k m =>
    simp only [UiSys.step] at h
    split at h
    · rename_i hc
      have hne : s.jobs ≠ [] := by intro h0; rw [h0] at hc; simp at hc
      have hd0 : s.dialog = none := by
        cases hdl : s.dialog with
        | none => rfl
        | some b => exact absurd (hi.idle (by simp [hdl])).1 hne
      have key : ∃ p, s.page.update m = .ok (p, none) := by
        cases m with
        | changeState st => exact ⟨_, rfl⟩
        | _ => simp [unpackDef] at hc
      obtain ⟨p, hu⟩ := key
      simp only [Option.some.injEq, unpackDeliver, hu, Res.bind] at h
      exact done _ h.symm (fun k hk => by simp [hd0] at hk)
    · cases h
  | dies k =>
    simp only [UiSys.step] at h
    split at h
    · rename_i hc
      have hne : s.jobs ≠ [] := by intro h0; rw [h0] at hc; simp at hc
      have hd0 : s.dialog = none := by
        cases hdl : s.dialog with
        | none => rfl
        | some b => exact absurd (hi.idle (by simp [hdl])).1 hne
      simp only [Option.some.injEq] at h
      exact done _ h.symm (fun k hk => by simp [hd0] at hk)
    · cases h

end Xdvdfs
