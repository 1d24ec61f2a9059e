import Verif.Proof.WebUi

/-!
# The pages of the graphical front ends: C97, C98, C99
-/

namespace Xdvdfs

open Spec

/-! ## C97: the page "Pack" -/

theorem packInv_init {alive : Prop} (fname : F → Str) (dname : D → Str) :
    PackInv alive (UiSys.init (packDef fname dname)) := by
  constructor
  · intro h; simp [UiSys.init, packDef, PackPage.init, PackStage.rank] at h
  · intro h; simp [UiSys.init, packDef, PackPage.init, PackStage.rank] at h
  · intro h; simp [UiSys.init] at h
  · intro b h; simp [UiSys.init] at h
  · intro h; simp [UiSys.init] at h
  · intro _ _; rfl

theorem pack_happens {fname : F → Str} {dname : D → Str} (hf : ∀ f, (fileName (fname f)).isSome)
    (hd : ∀ d, (fileName (dname d)).isSome) {es : List (UiEvent (PackMsg F D) F D)}
    {r : Res (UiSys (PackPage F D) (Picked F D × F))} (h : Happens (packDef fname dname) es r) :
    ∃ s, r = .ok s ∧ PackInv (NoneDies es) s := by
  refine happens_inv (packDef fname dname) (fun _ _ => True) (fun e => NoneDies es → ∀ k, e ≠ .dies k) _
    (packInv_init fname dname) ?_ es r ?_ (fun _ _ _ _ _ _ => trivial) h
  · intro s e r hi hq _ hstep
    exact packInv_step hf hd s e r hi hq hstep
  · intro e he hn k hk
    exact hn k (hk ▸ he)

/-- **C97.**  Whatever the user clicks and chooses, and whatever the jobs report: the page does not crash, at most one
job runs, and while it runs no button can be clicked and no dialog is open.  The job works on the input and output that
the page shows as selected. -/
theorem C97_safe {fname : F → Str} {dname : D → Str} (hf : ∀ f, (fileName (fname f)).isSome)
    (hd : ∀ d, (fileName (dname d)).isSome) {es : List (UiEvent (PackMsg F D) F D)}
    {r : Res (UiSys (PackPage F D) (Picked F D × F))} (h : Happens (packDef fname dname) es r) :
    ∃ s v, r = .ok s ∧ Shows (packDef fname dname) s v ∧ s.jobs.length ≤ 1 ∧
      (s.jobs ≠ [] → v.buttons = [] ∧ s.dialog = none) ∧
      ∀ i f, (i, f) ∈ s.jobs → s.page.input = some i ∧ s.page.output = some f := by
  obtain ⟨s, rfl, hi⟩ := pack_happens hf hd h
  obtain ⟨v, hv, hb, _⟩ := packView_ok hf hd s.page hi.typed
  refine ⟨s, v, rfl, hv, ?_, ?_, ?_⟩
  · cases hj : s.jobs with
    | nil => simp
    | cons _ _ =>
      obtain ⟨_, i, f, h, _⟩ := hi.busy (by simp [hj])
      rw [hj] at h
      simp [h]
  · intro hne
    refine ⟨hb (hi.busy hne).1, ?_⟩
    cases hdl : s.dialog with
    | none => rfl
    | some b => exact absurd (hi.idle (by simp [hdl])) hne
  · intro i f hm
    obtain ⟨_, i', f', h, h1, h2⟩ := hi.busy (List.ne_nil_of_mem hm)
    rw [h, List.mem_singleton] at hm
    cases hm
    exact ⟨h1, h2⟩

/-- **C97.**  What is chosen is what is used: choosing an input selects it and starts nothing; choosing an output starts
a job with the selected input and that output. -/
theorem C97_choices {fname : F → Str} {dname : D → Str} (hf : ∀ f, (fileName (fname f)).isSome)
    (hd : ∀ d, (fileName (dname d)).isSome) {es : List (UiEvent (PackMsg F D) F D)}
    {s : UiSys (PackPage F D) (Picked F D × F)} (h : Happens (packDef fname dname) es (.ok s)) :
    (∀ k p s', s.dialog = some (.input k) → Happens (packDef fname dname) (es ++ [.choose p]) (.ok s') →
      s'.page.input = some p ∧ s'.jobs = []) ∧
    (∀ k f s', s.dialog = some (.output k) → Happens (packDef fname dname) (es ++ [.choose (.file f)]) (.ok s') →
      ∃ i, s.page.input = some i ∧ s'.jobs = [(i, f)]) := by
  obtain ⟨_, heq, hi⟩ := pack_happens hf hd h
  cases heq
  have hrun : ∀ p s', Happens (packDef fname dname) (es ++ [.choose p]) (.ok s') →
      s.step (packDef fname dname) (.choose p) = some (.ok s') := by
    intro p s' h'
    simp only [Happens] at h h'
    rw [runUi_append, h] at h'
    simp only [runUi] at h'
    cases hs : s.step (packDef fname dname) (.choose p) with
    | none => rw [hs] at h'; simp at h'
    | some q => rw [hs] at h'; cases q <;> simp_all
  constructor
  · intro k p s' hdlg h'
    have hj := hi.idle (by simp [hdlg])
    have h' := hrun p s' h'
    simp only [UiSys.step, hdlg] at h'
    split at h'
    · rcases hi.dlg _ hdlg with ⟨_, _, hr⟩ | ⟨hk, _⟩
      · rw [show (packDef fname dname).inputMsg p = .setInput p from rfl,
          packDeliver_ok hf hd (s := { s with dialog := none })
            (p := { s.page.reset 1 with input := some p, stage := .selectOutput }) (j := none) rfl
            (by intro _; simpa [PackPage.reset] using hi.typed hr)] at h'
        simp only [Option.some.injEq, Res.ok.injEq] at h'
        rw [← h']
        exact ⟨rfl, by simp [hj]⟩
      · cases hk
    · cases h'
  · intro k f s' hdlg h'
    have hj := hi.idle (by simp [hdlg])
    have h' := hrun _ s' h'
    simp only [UiSys.step, hdlg] at h'
    split at h'
    · rcases hi.dlg _ hdlg with ⟨_, hk, _⟩ | ⟨_, hr⟩
      · cases hk
      · obtain ⟨i, hin⟩ := Option.isSome_iff_exists.1 (hi.given hr)
        rw [show (packDef fname dname).outputMsg (.file f) = .setOutput f from rfl,
          packDeliver_ok hf hd (s := { s with dialog := none })
            (p := { s.page.reset 2 with output := some f, stage := .packing .creatingFilesystem }) (j := some (i, f))
            (by simp [PackPage.update, PackPage.reset, hin])
            (by intro _; simpa [PackPage.reset] using hi.typed (by omega))] at h'
        simp only [Option.some.injEq, Res.ok.injEq] at h'
        rw [← h']
        exact ⟨i, hin, by simp [hj]⟩
    · cases h'

/-- **C97.**  If no job dies without a message, the page is usable whenever no job runs: the input type can be chosen,
the input if the type was chosen, and the output if the input was chosen. -/
theorem C97_usable {fname : F → Str} {dname : D → Str} (hf : ∀ f, (fileName (fname f)).isSome)
    (hd : ∀ d, (fileName (dname d)).isSome) {es : List (UiEvent (PackMsg F D) F D)}
    {s : UiSys (PackPage F D) (Picked F D × F)} {v : Shown} (hn : NoneDies es)
    (h : Happens (packDef fname dname) es (.ok s)) (hs : Shows (packDef fname dname) s v) (hj : s.jobs = []) :
    (∀ k, Button.inputType k ∈ v.buttons) ∧
      (s.page.stage ≠ .selectInputType → ∃ k, s.page.inputType = some k ∧ Button.input k.dialog ∈ v.buttons) ∧
      (s.page.stage ≠ .selectInputType → s.page.stage ≠ .selectInput → Button.output .saveFile ∈ v.buttons) := by
  obtain ⟨_, heq, hi⟩ := pack_happens hf hd h
  cases heq
  obtain ⟨v', hv, _, hb, _, hb2, hb3, _⟩ := packView_ok hf hd s.page hi.typed
  have : v' = v := by simp only [Shows, packDef] at hs; rw [hv] at hs; simpa using hs
  subst this
  have hnp := hi.free hn hj
  refine ⟨fun k => by cases k with | directory => exact (hb hnp).1 | file => exact (hb hnp).2, ?_, ?_⟩
  · intro hst
    have hr : 1 ≤ s.page.stage.rank := by cases hs : s.page.stage <;> simp_all [PackStage.rank]
    obtain ⟨k, hk⟩ := Option.isSome_iff_exists.1 (hi.typed hr)
    exact ⟨k, hk, hb2 k hr hnp hk⟩
  · intro h1 h2
    exact hb3 (by cases hs : s.page.stage <;> simp_all [PackStage.rank]) hnp

/-- **C97.**  When a job ends with an error, the page shows that error; when it ends without, the page shows none. -/
theorem C97_outcome {fname : F → Str} {dname : D → Str} (hf : ∀ f, (fileName (fname f)).isSome)
    (hd : ∀ d, (fileName (dname d)).isSome) {es : List (UiEvent (PackMsg F D) F D)} {k : Nat} {m : PackMsg F D}
    {s : UiSys (PackPage F D) (Picked F D × F)}
    (h : Happens (packDef fname dname) (es ++ [.ends k m]) (.ok s)) :
    ∃ v, Shows (packDef fname dname) s v ∧ s.jobs = [] ∧
      ((m = .changeState .finished ∧ v.error = none) ∨ ∃ e, m = .changeState (.error e) ∧ v.error = some e) := by
  obtain ⟨_, heq, hi⟩ := pack_happens hf hd h
  cases heq
  obtain ⟨v, hv, _, _, _, _, _, _, _, _, he⟩ := packView_ok hf hd s.page hi.typed
  refine ⟨v, hv, ?_⟩
  have hpre : ∃ s0, Happens (packDef fname dname) es (.ok s0) ∧ s0.step (packDef fname dname) (.ends k m) = some (.ok s) := by
    simp only [Happens] at h ⊢
    rw [runUi_append] at h
    cases hr : runUi (packDef fname dname) es (UiSys.init (packDef fname dname)) with
    | none => rw [hr] at h; simp at h
    | some q =>
      rw [hr] at h
      cases q with
      | ok s0 =>
        simp only [runUi] at h
        refine ⟨s0, rfl, ?_⟩
        cases hs : s0.step (packDef fname dname) (.ends k m) with
        | none => rw [hs] at h; simp at h
        | some q => rw [hs] at h; cases q <;> simp_all
      | _ => simp at h
  obtain ⟨s0, h0, hs0⟩ := hpre
  obtain ⟨_, heq0, hi0⟩ := pack_happens hf hd h0
  cases heq0
  simp only [UiSys.step] at hs0
  split at hs0
  · rename_i hc
    have hne : s0.jobs ≠ [] := by intro h0; rw [h0] at hc; simp at hc
    obtain ⟨_, i, f, hjobs, _⟩ := hi0.busy hne
    have hk : k = 0 := by have := hc.1; rw [hjobs] at this; simpa using this
    cases m with
    | changeState st =>
      have hs' : s.page.stage = st ∧ s.jobs = [] := by
        simp only [Option.some.injEq, UiSys.deliver] at hs0
        rw [show (packDef fname dname).update s0.page (.changeState st) = .ok ({ s0.page with stage := st }, none) from rfl,
          Res.ok_bind] at hs0
        obtain ⟨_, _, h2⟩ := Res.bind_eq_ok.1 hs0
        simp only [Res.ok.injEq] at h2
        rw [← h2]
        exact ⟨rfl, by simp [hjobs, hk]⟩
      refine ⟨hs'.2, ?_⟩
      rw [he, hs'.1]
      cases st with
      | finished => exact .inl ⟨rfl, rfl⟩
      | error e => exact .inr ⟨e, rfl, rfl⟩
      | _ => simp [packDef] at hc
    | _ => simp [packDef] at hc
  · cases hs0

/-- Names for two files and two folders. -/
def twoNames (b : Bool) : Str := if b then ['g', 'a', 'm', 'e'] else ['o', 'u', 't', '.', 'i', 's', 'o']

/-- A session: a folder is chosen and packed with an error, and packed again to another file. -/
def packSession : List (UiEvent (PackMsg Bool Bool) Bool Bool) :=
  [.click (.inputType .directory), .click (.input .openDirectory), .choose (.dir true),
    .click (.output .saveFile), .choose (.file true),
    .report 0 (.changeState (.packing .packingImage)), .report 0 (.updateProgress (.fileCount 1)),
    .report 0 (.updateProgress .finishedPacking), .ends 0 (.changeState (.error ['e'])),
    .click (.output .saveFile), .choose (.file false)]

/-- The hypotheses of C97 are met: the names have file names, the session happens, no job dies, and the job that runs at
its end works on the folder and the second file. -/
example : (∀ b, (fileName (twoNames b)).isSome) ∧ NoneDies packSession ∧
    ∃ s, Happens (packDef twoNames twoNames) packSession (.ok s) ∧ s.jobs = [(.dir true, false)] := by
  refine ⟨fun b => by cases b <;> decide, ?_, _, rfl, rfl⟩
  intro k; simp [packSession]

/-- **C97 needs the names.**  In the desktop version the name of a folder is its path.  Choosing the root directory
crashes the page. -/
theorem C97_root_false : ∃ es, Happens (packDef (F := Str) (D := Str) id id) es .panic :=
  ⟨[.click (.inputType .directory), .click (.input .openDirectory), .choose (.dir ['/'])], rfl⟩

/-! ## C98: the page "Compress" -/

theorem compInv_init {alive : Prop} : CompInv alive (UiSys.init (compDef (F := F) (D := D))) := by
  constructor
  · intro h; simp [UiSys.init, compDef, CompPage.init, CompStage.rank] at h
  · intro h; simp [UiSys.init, compDef, CompPage.init, CompStage.rank] at h
  · intro h; simp [UiSys.init] at h
  · intro b h; simp [UiSys.init] at h
  · intro h; simp [UiSys.init] at h
  · intro _ _; rfl

/-- A folder is being compressed. -/
def compStart : List (UiEvent (CompMsg Str Str) Str Str) :=
  [.click (.inputType .directory), .click (.input .openDirectory), .choose (.dir ['g']),
    .click (.output .openDirectory), .choose (.dir ['o']),
    .report 0 (.changeState (.packing .packingImage)), .report 0 (.updateProgress (.fileCount 1)),
    .report 0 (.updateProgress .finishedPacking), .report 0 (.changeState .compressing)]

/-- **C98 is false: crash.**  While the image is compressed the buttons can be clicked.  If the user chooses an input
type then, and an output after the job has ended, the page crashes. -/
theorem C98_crash_false : ∃ es, NoneDies es ∧ Happens (compDef (F := Str) (D := Str)) es .panic := by
  refine ⟨compStart ++ [.click (.inputType .file), .ends 0 (.changeState .finished), .click (.output .openDirectory),
    .choose (.dir ['o'])], by intro k; simp [compStart], ?_⟩
  rfl

/-- **C98 is false: two jobs.**  While the image is compressed the same job can be started again: two jobs write the
same output. -/
theorem C98_one_job_false : ∃ es s, NoneDies es ∧ Happens (compDef (F := Str) (D := Str)) es (.ok s) ∧
    s.jobs = [(.dir ['g'], ['o']), (.dir ['g'], ['o'])] := by
  refine ⟨compStart ++ [.click (.output .openDirectory), .choose (.dir ['o'])],
    ⟨⟨.packing .creatingFilesystem, some .directory, some (.dir ['g']), some ['o'], 0, 0, none⟩, none,
      [(.dir ['g'], ['o']), (.dir ['g'], ['o'])]⟩, by intro k; simp [compStart], ?_, rfl⟩
  rfl

/-- **C98 is false: the end of another job.**  With two jobs, the page says that everything is done without error while
a job still runs. -/
theorem C98_finished_false : ∃ es s v, NoneDies es ∧ Happens (compDef (F := Str) (D := Str)) es (.ok s) ∧
    Shows compDef s v ∧ s.page.stage = .finished ∧ v.error = none ∧ s.jobs ≠ [] := by
  refine ⟨compStart ++ [.click (.output .openDirectory), .choose (.dir ['o']), .ends 0 (.changeState .finished)],
    ⟨⟨.finished, some .directory, some (.dir ['g']), some ['o'], 0, 0, none⟩, none, [(.dir ['g'], ['o'])]⟩,
    ⟨[.inputType .directory, .inputType .file, .input .openDirectory, .output .openDirectory], 0, 0, 0, none⟩,
    by intro k; simp [compStart], ?_, ?_, rfl, rfl, by simp⟩
  · rfl
  · rfl

/-- **C98, the part that holds.**  If the user clicks no button while a job runs: the page does not crash, at most one
job runs, and it works on the input and output that the page shows as selected; if no job died the page is usable
whenever no job runs. -/
theorem C98_partial {es : List (UiEvent (CompMsg F D) F D)} {r : Res (UiSys (CompPage F D) (Picked F D × D))}
    (hw : ClicksWhen compDef (fun _ s => s.jobs = []) es) (h : Happens compDef es r) :
    ∃ s v, r = .ok s ∧ Shows compDef s v ∧ s.jobs.length ≤ 1 ∧ (s.jobs ≠ [] → s.dialog = none) ∧
      (∀ i d, (i, d) ∈ s.jobs → s.page.input = some i ∧ s.page.output = some d) ∧
      (NoneDies es → s.jobs = [] → ∀ k, Button.inputType k ∈ v.buttons) := by
  have key : ∃ s, r = .ok s ∧ CompInv (NoneDies es) s := by
    refine happens_inv compDef (fun _ s => s.jobs = []) (fun e => NoneDies es → ∀ k, e ≠ .dies k) _
      compInv_init ?_ es r ?_ hw h
    · intro s e r hi hq hp hstep
      exact compInv_step s e r hi hq hp hstep
    · intro e he hn k hk
      exact hn k (hk ▸ he)
  obtain ⟨s, rfl, hi⟩ := key
  obtain ⟨v, hv, _, hb, _⟩ := compView_ok s.page hi.typed
  refine ⟨s, v, rfl, hv, ?_, ?_, ?_, ?_⟩
  · cases hj : s.jobs with
    | nil => simp
    | cons _ _ =>
      obtain ⟨_, i, f, h, _⟩ := hi.busy (by simp [hj])
      rw [hj] at h
      simp [h]
  · intro hne
    cases hdl : s.dialog with
    | none => rfl
    | some b => exact absurd (hi.idle (by simp [hdl])) hne
  · intro i f hm
    obtain ⟨_, i', f', h, h1, h2⟩ := hi.busy (List.ne_nil_of_mem hm)
    rw [h, List.mem_singleton] at hm
    cases hm
    exact ⟨h1, h2⟩
  · intro hn hj k
    have := hb (hi.free hn hj)
    cases k with
    | directory => exact this.1
    | file => exact this.2

/-- The hypotheses of the part that holds are met by the start of a compression and its end. -/
example : ClicksWhen (compDef (F := Str) (D := Str)) (fun _ s => s.jobs = []) (compStart ++ [.ends 0 (.changeState .finished)]) ∧
    ∃ s, Happens (compDef (F := Str) (D := Str)) (compStart ++ [.ends 0 (.changeState .finished)]) (.ok s) := by
  refine ⟨?_, _, rfl⟩
  intro before b after s he hb
  have cases3 : before = [] ∨ before = [.click (.inputType .directory)] ∨
      before = [.click (.inputType .directory), .click (.input .openDirectory), .choose (.dir ['g'])] := by
    rcases before with _ | ⟨e1, _ | ⟨e2, _ | ⟨e3, _ | ⟨e4, _ | ⟨e5, rest⟩⟩⟩⟩⟩
    · exact .inl rfl
    · simp only [compStart, List.cons_append, List.nil_append, List.cons.injEq] at he
      exact .inr (.inl (by rw [he.1]))
    · simp [compStart] at he
    · simp only [compStart, List.cons_append, List.nil_append, List.cons.injEq] at he
      exact .inr (.inr (by rw [he.1, he.2.1, he.2.2.1]))
    · simp [compStart] at he
    · exfalso
      simp only [compStart, List.cons_append, List.nil_append, List.cons.injEq] at he
      have hm : UiEvent.click b ∈ rest ++ .click b :: after := by simp
      rw [← he.2.2.2.2.2] at hm
      simp at hm
  rcases cases3 with rfl | rfl | rfl
  all_goals
    simp only [Happens] at hb
    have : s.jobs = [] := by
      have h2 := Option.some.inj hb
      have h3 := Res.ok.inj h2
      rw [← h3]; rfl
    exact this

/-! ## C99: the page "Unpack" -/

theorem unpackInv_init {alive : Prop} : UnpackInv alive (UiSys.init (unpackDef (F := F) (D := D))) := by
  constructor
  · intro h; simp [UiSys.init] at h
  · intro b h; simp [UiSys.init] at h
  · intro h; simp [UiSys.init, unpackDef, UnpackPage.init] at h
  · intro h; simp [UiSys.init] at h
  · intro _ _; simp [UiSys.init, unpackDef, UnpackPage.init]

/-- An image is unpacked into a folder. -/
def unpackSession : List (UiEvent (UnpackMsg Str Str) Str Str) :=
  [.click (.input .openFile), .choose (.file ['i']), .click (.output .openDirectory), .choose (.dir ['o']),
    .report 0 (.updateProgress (.fileCount 1)), .ends 0 (.changeState .finished)]

/-- **C99 is false: crash.**  After an image was unpacked, the button for the output can still be clicked, but there is
no input any more: choosing another folder crashes the page.  The same happens after an error. -/
theorem C99_crash_false : ∀ e : Str, Happens (unpackDef (F := Str) (D := Str))
      (unpackSession ++ [.click (.output .openDirectory), .choose (.dir ['p'])]) .panic ∧
    Happens (unpackDef (F := Str) (D := Str)) (unpackSession.dropLast ++ [.ends 0 (.changeState (.error e)),
      .click (.output .openDirectory), .choose (.dir ['p'])]) .panic :=
  fun _ => ⟨rfl, rfl⟩

/-- **C99, the part that holds: one job.**  At most one job runs; while it runs no button can be clicked and no dialog
is open; if no job died, the page is usable whenever no job runs. -/
theorem C99_one_job_partial {es : List (UiEvent (UnpackMsg F D) F D)} {s : UiSys (UnpackPage F D) (F × D)}
    (h : Happens unpackDef es (.ok s)) :
    ∃ v, Shows unpackDef s v ∧ s.jobs.length ≤ 1 ∧ (s.jobs ≠ [] → v.buttons = [] ∧ s.dialog = none) ∧
      (∀ f d, (f, d) ∈ s.jobs → s.page.output = some d) ∧
      (NoneDies es → s.jobs = [] → Button.input .openFile ∈ v.buttons ∧
        (s.page.stage ≠ .selectInput → Button.output .openDirectory ∈ v.buttons)) := by
  have hi : UnpackInv (NoneDies es) s := by
    refine happens_ok unpackDef (fun e => NoneDies es → ∀ k, e ≠ .dies k) _ unpackInv_init ?_ es s ?_ h
    · intro s e s' hi hq hstep
      exact unpackInv_step s e s' hi hq hstep
    · intro e he hn k hk
      exact hn k (hk ▸ he)
  refine ⟨_, rfl, ?_, ?_, ?_, ?_⟩
  · cases hj : s.jobs with
    | nil => simp
    | cons _ _ =>
      obtain ⟨_, i, f, h, _⟩ := hi.busy (by simp [hj])
      rw [hj] at h
      simp [h]
  · intro hne
    refine ⟨by simp [(hi.busy hne).1], ?_⟩
    cases hdl : s.dialog with
    | none => rfl
    | some b => exact absurd (hi.idle (by simp [hdl])).1 hne
  · intro f d hm
    obtain ⟨_, f', d', h, h1⟩ := hi.busy (List.ne_nil_of_mem hm)
    rw [h, List.mem_singleton] at hm
    cases hm
    exact h1
  · intro hn hj
    have := hi.free hn hj
    refine ⟨by simp [this], ?_⟩
    intro hst
    have hr : s.page.stage.rank ≥ UnpackStage.selectOutput.rank := by
      cases hs : s.page.stage <;> simp_all [UnpackStage.rank]
    simp [this, hr]

/-- **C99, the part that holds: no crash.**  If the user opens the dialog for the output only while an image is shown as
selected, the page does not crash, and the job it starts works on that image. -/
theorem C99_safe_partial {es : List (UiEvent (UnpackMsg F D) F D)} {r : Res (UiSys (UnpackPage F D) (F × D))}
    (hw : ClicksWhen unpackDef (fun b s => (∃ k, b = .output k) → s.page.input.isSome) es) (h : Happens unpackDef es r) :
    ∃ s, r = .ok s ∧ ∀ k d s', s.dialog = some (.output k) →
      Happens unpackDef (es ++ [.choose (.dir d)]) (.ok s') → ∃ f, s.page.input = some f ∧ s'.jobs = [(f, d)] := by
  obtain ⟨s, rfl, hi, ho⟩ := happens_inv unpackDef (fun b s => (∃ k, b = .output k) → s.page.input.isSome) (fun _ => True)
    (fun s => UnpackInv False s ∧ ∀ k, s.dialog = some (.output k) → s.page.input.isSome)
    ⟨unpackInv_init, fun k hk => by simp [UiSys.init] at hk⟩
    (fun s e r hi _ hp hstep => unpackSafe_step s e r hi (fun b hb hk => hp b hb hk) hstep)
    es r (fun _ _ => trivial) hw h
  refine ⟨s, rfl, ?_⟩
  intro k d s' hdlg h'
  have hj := (hi.idle (by simp [hdlg])).1
  obtain ⟨f, hf⟩ := Option.isSome_iff_exists.1 (ho k hdlg)
  refine ⟨f, hf, ?_⟩
  simp only [Happens] at h h'
  rw [runUi_append, h] at h'
  simp only [runUi, UiSys.step, hdlg] at h'
  by_cases hdel : k.delivers (.dir d : Picked F D) = true
  · rw [if_pos hdel] at h'
    rw [show (unpackDef (F := F) (D := D)).outputMsg (.dir d) = .setOutput d from rfl, unpackDeliver] at h'
    simp only [UnpackPage.update, UnpackPage.reset, hf, Res.bind] at h'
    simp only [if_neg (by decide : ¬ (2 : Nat) = 0), Option.some.injEq, Res.ok.injEq] at h'
    rw [← h']
    simp [hj]
  · rw [if_neg hdel] at h'
    simp at h'

/-- The hypotheses are met: unpacking one image, then another, into the same folder. -/
example : ∃ s, Happens (unpackDef (F := Str) (D := Str))
    (unpackSession ++ [.click (.input .openFile), .choose (.file ['j']), .click (.output .openDirectory), .choose (.dir ['o'])])
    (.ok s) ∧ s.jobs = [(['j'], ['o'])] := ⟨_, rfl, rfl⟩

example : ClicksWhen (unpackDef (F := Str) (D := Str)) (fun b s => (∃ k, b = .output k) → s.page.input.isSome)
    (unpackSession.take 4) := by
  intro before b after s he hb
  have cases2 : (before = [] ∧ b = .input .openFile) ∨ (before = [.click (.input .openFile), .choose (.file ['i'])]) := by
    rcases before with _ | ⟨e1, _ | ⟨e2, _ | ⟨e3, rest⟩⟩⟩
    · simp only [unpackSession, List.take, List.nil_append, List.cons.injEq, UiEvent.click.injEq] at he
      exact .inl ⟨rfl, he.1.symm⟩
    · simp [unpackSession] at he
    · simp only [unpackSession, List.take, List.cons_append, List.nil_append, List.cons.injEq] at he
      exact .inr (by rw [he.1, he.2.1])
    · exfalso
      simp only [unpackSession, List.take, List.cons_append, List.nil_append, List.cons.injEq] at he
      have hm : UiEvent.click b ∈ rest ++ .click b :: after := by simp
      rw [← he.2.2.2] at hm
      simp at hm
  rcases cases2 with ⟨rfl, rfl⟩ | rfl
  · rintro ⟨k, hk⟩
    cases hk
  · intro _
    simp only [Happens] at hb
    have h3 := Res.ok.inj (Option.some.inj hb)
    rw [← h3]; rfl

end Xdvdfs
