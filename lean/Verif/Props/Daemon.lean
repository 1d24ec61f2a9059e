import Verif.Spec.Daemon
import Verif.Props.Fuse
import Verif.Props.MountOpts

/-!
# Properties of the mount program
-/

namespace Xdvdfs.Props
open Spec

/-! ## The transitions, and induction over histories -/

/-- Everything that can happen. -/
inductive MountSteps (j : MountJob) : MountState → MountEvent → MountState → Prop
  | pFork {sv k} : MountSteps j ⟨.forked, sv, k⟩ .parent ⟨.waiting, sv, k⟩
  | pRead {sv k} : 0 < k → MountSteps j ⟨.waiting, sv, k⟩ .parent ⟨.exited 0, sv, k - 1⟩
  | pEof {sv} : (⟨.waiting, sv, 0⟩ : MountState).writable = false → MountSteps j ⟨.waiting, sv, 0⟩ .parent ⟨.exited 0, sv, 0⟩
  | sFork {p k} : MountSteps j ⟨p, .forked, k⟩ .server ⟨p, .started, k⟩
  | sOpen {p k m c} : j.runtime = true → mountImage (fileDev j.image) j.fuel = .ok (m, c) →
      MountSteps j ⟨p, .started, k⟩ .server ⟨p, .opened m c, k⟩
  | sFail {p k n} : n ≠ 0 → (n = 1 ∨ n = panicStatus) → ¬ CanOpen j → MountSteps j ⟨p, .started, k⟩ .server ⟨p, .failing n, k⟩
  | sAlone {k m c} : MountSteps j ⟨.absent, .opened m c, k⟩ .server ⟨.absent, .told m c, k⟩
  | sTell {p k m c} : p ≠ .absent → (⟨p, .opened m c, k⟩ : MountState).readable = true →
      MountSteps j ⟨p, .opened m c, k⟩ .server ⟨p, .told m c, k + 1⟩
  | sBroken {p k m c} : p ≠ .absent → (⟨p, .opened m c, k⟩ : MountState).readable = false →
      MountSteps j ⟨p, .opened m c, k⟩ .server ⟨p, .leaving panicStatus, k⟩
  | fAlone {k n} : MountSteps j ⟨.absent, .failing n, k⟩ .server ⟨.absent, .leaving n, k⟩
  | fTell {p k n} : p ≠ .absent → (⟨p, .failing n, k⟩ : MountState).readable = true →
      MountSteps j ⟨p, .failing n, k⟩ .server ⟨p, .leaving n, k + 1⟩
  | fBroken {p k n} : p ≠ .absent → (⟨p, .failing n, k⟩ : MountState).readable = false →
      MountSteps j ⟨p, .failing n, k⟩ .server ⟨p, .leaving panicStatus, k⟩
  | sMount {p k m c} : j.mounts = true → MountSteps j ⟨p, .told m c, k⟩ .server ⟨p, .serving m c, k⟩
  | sNoMount {p k m c} : j.mounts = false → MountSteps j ⟨p, .told m c, k⟩ .server ⟨p, .leaving 1, k⟩
  | sExit {p k n} : MountSteps j ⟨p, .leaving n, k⟩ .server ⟨p, .exited n, k⟩
  | rOk {p k m c op r c'} : fuseStep m c op = .ok (r, c') →
      MountSteps j ⟨p, .serving m c, k⟩ (.request op) ⟨p, .serving m c', k⟩
  | rErr {p k m c op e} : fuseStep m c op = .err e → MountSteps j ⟨p, .serving m c, k⟩ (.request op) ⟨p, .serving m c, k⟩
  | rPanic {p k m c op} : fuseStep m c op = .panic →
      MountSteps j ⟨p, .serving m c, k⟩ (.request op) ⟨p, .leaving panicStatus, k⟩
  | rHang {p k m c op} : fuseStep m c op = .hang → MountSteps j ⟨p, .serving m c, k⟩ (.request op) ⟨p, .stuck, k⟩
  | unmount {p k m c} : MountSteps j ⟨p, .serving m c, k⟩ .unmount ⟨p, .leaving 0, k⟩
  | killP {p sv k} : p.alive = true → MountSteps j ⟨p, sv, k⟩ .killParent ⟨.killed, sv, k⟩
  | killS {p sv k} : sv.alive = true → MountSteps j ⟨p, sv, k⟩ .killServer ⟨p, .killed, k⟩

theorem mountStep_steps {j : MountJob} {s s' : MountState} {e : MountEvent} (h : mountStep j s e = some s') :
    MountSteps j s e s' := by
  obtain ⟨p, sv, k⟩ := s
  cases e with
  | parent =>
    simp only [mountStep, parentStep] at h
    split at h
    · cases h; exact .pFork
    · split at h
      · cases h; exact .pRead ‹_›
      · rename_i hk
        simp only [Nat.not_lt, Nat.le_zero] at hk
        subst hk
        split at h
        · cases h
        · rename_i hw; cases h; exact .pEof (by simpa using hw)
    · cases h
  | server =>
    simp only [mountStep, serverStep] at h
    split at h
    · cases h; exact .sFork
    · split at h
      · rename_i hr
        split at h
        · rename_i m c hm; cases h; exact .sOpen hr hm
        · rename_i e hm; cases h
          exact .sFail (by decide) (.inl rfl) (by rintro ⟨_, m, c, h⟩; rw [hm] at h; cases h)
        · rename_i hm; cases h
          exact .sFail (by decide) (.inr rfl) (by rintro ⟨_, m, c, h⟩; rw [hm] at h; cases h)
        · cases h
      · rename_i hr; cases h
        exact .sFail (by decide) (.inl rfl) (by rintro ⟨h, _⟩; exact hr h)
    · split at h
      · rename_i hp; subst hp; cases h; exact .sAlone
      · rename_i hp
        split at h
        · cases h; exact .sTell hp ‹_›
        · rename_i hr; cases h; exact .sBroken hp (by simpa using hr)
    · split at h
      · rename_i hp; subst hp; cases h; exact .fAlone
      · rename_i hp
        split at h
        · cases h; exact .fTell hp ‹_›
        · rename_i hr; cases h; exact .fBroken hp (by simpa using hr)
    · cases h
      cases hm : j.mounts with
      | true => rw [if_pos rfl]; exact .sMount hm
      | false => rw [if_neg (by decide)]; exact .sNoMount hm
    · cases h; exact .sExit
    · cases h
  | request op =>
    simp only [mountStep, requestStep] at h
    split at h
    · split at h
      · rename_i hf; cases h; exact .rOk hf
      · rename_i hf; cases h; exact .rErr hf
      · rename_i hf; cases h; exact .rPanic hf
      · rename_i hf; cases h; exact .rHang hf
    · cases h
  | unmount =>
    simp only [mountStep] at h
    split at h
    · cases h; exact .unmount
    · cases h
  | killParent =>
    simp only [mountStep] at h
    split at h
    · cases h; exact .killP ‹_›
    · cases h
  | killServer =>
    simp only [mountStep] at h
    split at h
    · cases h; exact .killS ‹_›
    · cases h

/-- What holds at first and is kept by every event that occurs holds at the end. -/
theorem runMount_inv {j : MountJob} {P : MountState → Prop} : ∀ {es : List MountEvent} {s s' : MountState},
    (∀ s e s', e ∈ es → P s → MountSteps j s e s' → P s') → P s → runMount j es s = some s' → P s' := by
  intro es
  induction es with
  | nil => intro s s' _ hp h; cases h; exact hp
  | cons e es ih =>
    intro s s' hk hp h
    unfold runMount at h
    split at h
    · rename_i s1 h1
      exact ih (fun s e s' he => hk s e s' (List.mem_cons_of_mem _ he)) (hk _ _ _ List.mem_cons_self hp (mountStep_steps h1)) h
    · cases h

theorem runMount_append {j : MountJob} : ∀ {es1 es2 : List MountEvent} {s s' : MountState},
    runMount j (es1 ++ es2) s = some s' ↔ ∃ s1, runMount j es1 s = some s1 ∧ runMount j es2 s1 = some s' := by
  intro es1
  induction es1 with
  | nil => intro es2 s s'; simp [runMount]
  | cons e es1 ih =>
    intro es2 s s'
    rw [List.cons_append, runMount, runMount]
    split
    · exact ih
    · simp

/-! ## C112: the mount command -/

/-- What holds for a command that forks. -/
structure Forking (j : MountJob) (s : MountState) : Prop where
  notAlone : s.parent ≠ .absent
  zero : ∀ n, s.parent = .exited n → n = 0
  ended : ∀ n, s.parent = .exited n → ¬ NotReported s
  empty : NotReported s → s.pipe = 0

theorem Forking.start {j : MountJob} (h : j.fork = true) : Forking j j.start := by
  unfold MountJob.start
  rw [if_pos h]
  exact ⟨nofun, nofun, nofun, fun _ => rfl⟩

theorem notReported_iff (p : ParentAt) (sv : ServerAt) (k : Nat) (p' : ParentAt) (k' : Nat) :
    NotReported ⟨p, sv, k⟩ ↔ NotReported ⟨p', sv, k'⟩ := Iff.rfl

theorem Forking.step {j : MountJob} {s s' : MountState} {e : MountEvent} (h : Forking j s) (hs : MountSteps j s e s') :
    Forking j s' := by
  obtain ⟨h1, h2, h3, h4⟩ := h
  cases hs with
  | pFork => exact ⟨nofun, nofun, nofun, h4⟩
  | pRead hk =>
    refine ⟨nofun, fun n hn => by cases hn; rfl, fun _ _ hr => ?_, fun hr => ?_⟩
    · have : _ = 0 := h4 hr; simp only at this; omega
    · have : _ = 0 := h4 hr; simp only at this; omega
  | @pEof sv hw =>
    have hnr : ∀ {q k}, ¬ NotReported ⟨q, sv, k⟩ := fun {q k} hr => by
      rcases hr with hr | hr | ⟨m, c, hr⟩ | ⟨n, hr⟩ <;> (simp only at hr; subst hr; simp [MountState.writable] at hw)
    exact ⟨nofun, fun n hn => by cases hn; rfl, fun _ _ hr => hnr hr, fun _ => rfl⟩
  | sFork => exact ⟨h1, h2, fun n hn => absurd (.inl rfl) (h3 n hn), fun _ => h4 (.inl rfl)⟩
  | sOpen _ _ => exact ⟨h1, h2, fun n hn => absurd (.inr (.inl rfl)) (h3 n hn), fun _ => h4 (.inr (.inl rfl))⟩
  | sFail _ _ _ => exact ⟨h1, h2, fun n hn => absurd (.inr (.inl rfl)) (h3 n hn), fun _ => h4 (.inr (.inl rfl))⟩
  | killP _ => exact ⟨nofun, nofun, nofun, h4⟩
  | sAlone => exact absurd rfl h1
  | fAlone => exact absurd rfl h1
  | _ =>
    refine ⟨h1, h2, ?_, ?_⟩ <;>
    · intros
      simp_all [NotReported]

theorem forking_run {j : MountJob} (hf : j.fork = true) {es : List MountEvent} {s : MountState} (h : MountRun j es s) :
    Forking j s :=
  runMount_inv (fun _ _ _ _ hp hs => hp.step hs) (.start hf) h

/-! The cases that show that the hypotheses can be met: an image with two files, and an empty file. -/

theorem opened_run {j : MountJob} (hf : j.fork = true) (hr : j.runtime = true) (hm : j.mounts = true) {m : Mount}
    {c : FuseCache} (h : mountImage (fileDev j.image) j.fuel = .ok (m, c)) :
    MountRun j [.server, .server, .server, .server, .parent, .parent] ⟨.exited 0, .serving m c, 0⟩ := by
  unfold MountRun MountJob.start
  rw [if_pos hf]
  have e1 : mountStep j ⟨.forked, .forked, 0⟩ .server = some ⟨.forked, .started, 0⟩ := rfl
  have e2 : mountStep j ⟨.forked, .started, 0⟩ .server = some ⟨.forked, .opened m c, 0⟩ := by
    simp [mountStep, serverStep, hr, h]
  have e3 : mountStep j ⟨.forked, .opened m c, 0⟩ .server = some ⟨.forked, .told m c, 1⟩ := rfl
  have e4 : mountStep j ⟨.forked, .told m c, 1⟩ .server = some ⟨.forked, .serving m c, 1⟩ := by
    simp [mountStep, serverStep, hm]
  simp only [runMount, e1, e2, e3, e4]
  rfl

theorem alone_run {j : MountJob} (hf : j.fork = false) (hr : j.runtime = true) (hm : j.mounts = true) {m : Mount}
    {c : FuseCache} (h : mountImage (fileDev j.image) j.fuel = .ok (m, c)) :
    MountRun j [.server, .server, .server] ⟨.absent, .serving m c, 0⟩ := by
  unfold MountRun MountJob.start
  rw [if_neg (by simp [hf])]
  have e2 : mountStep j ⟨.absent, .started, 0⟩ .server = some ⟨.absent, .opened m c, 0⟩ := by
    simp [mountStep, serverStep, hr, h]
  have e3 : mountStep j ⟨.absent, .opened m c, 0⟩ .server = some ⟨.absent, .told m c, 0⟩ := rfl
  have e4 : mountStep j ⟨.absent, .told m c, 0⟩ .server = some ⟨.absent, .serving m c, 0⟩ := by
    simp [mountStep, serverStep, hm]
  simp only [runMount, e2, e3, e4]

def twoJob (fork : Bool) : MountJob :=
  ⟨List.replicate 65536 0 ++ (handImage twoTable ++ [1, 2, 3, 4, 5, 6]), fork, true, true, 4⟩

theorem twoJob_opens (fork : Bool) : CanOpen (twoJob fork) := ⟨rfl, _, _, two_mounts⟩

def emptyJob (fork : Bool) : MountJob := ⟨[], fork, true, true, 4⟩

theorem emptyJob_fails (fork : Bool) : ¬ CanOpen (emptyJob fork) := by
  rintro ⟨_, m, c, h⟩
  have h0 : offsetNew (fileDev []) = .err .invalidVolume := by decide +kernel
  unfold mountImage at h
  rw [show (emptyJob fork).image = [] from rfl, h0] at h
  cases h

/-- C112 is false: the status. Whatever the image contains, and whatever happens: if the command forks and ends by
itself, its status is 0. -/
theorem C112_status_false {j : MountJob} (hf : j.fork = true) {es : List MountEvent} {s : MountState} (h : MountRun j es s)
    {n : Nat} (hn : commandStatus s = some n) : n = 0 := by
  obtain ⟨h1, h2, _, _⟩ := forking_run hf h
  unfold commandStatus at hn
  split at hn
  · rename_i hp; exact absurd hp h1
  · rename_i hp; cases hn; exact h2 _ hp
  · cases hn

example : ∃ es s, MountRun (twoJob true) es s ∧ commandStatus s = some 0 := ⟨_, _, opened_run rfl rfl rfl two_mounts, rfl⟩

/-- A property of the history so far that is kept by every event. -/
theorem mountRun_trace {j : MountJob} {P : List MountEvent → MountState → Prop} (h0 : P [] j.start)
    (hk : ∀ es s e s', MountRun j es s → P es s → MountSteps j s e s' → MountRun j (es ++ [e]) s' → P (es ++ [e]) s') :
    ∀ {es : List MountEvent} {s : MountState}, MountRun j es s → P es s := by
  have key : ∀ (es pre : List MountEvent) (s s' : MountState), MountRun j pre s → P pre s → runMount j es s = some s' →
      P (pre ++ es) s' := by
    intro es
    induction es with
    | nil => intro pre s s' _ hp h; cases h; rw [List.append_nil]; exact hp
    | cons e es ih =>
      intro pre s s' hr hp h
      unfold runMount at h
      split at h
      · rename_i s1 h1
        have hr' : MountRun j (pre ++ [e]) s1 := runMount_append.2 ⟨s, hr, by simp [runMount, h1]⟩
        have := ih (pre ++ [e]) s1 s' hr' (hk pre s e s1 hr hp (mountStep_steps h1) hr') h
        simpa using this
      · cases h
  intro es s h
  exact key es [] j.start s rfl h0 h

theorem wasMounted_more {j : MountJob} {es : List MountEvent} {e : MountEvent} (h : WasMounted j es) :
    WasMounted j (es ++ [e]) := by
  obtain ⟨es1, es2, s, h1, h2, h3⟩ := h
  exact ⟨es1, es2 ++ [e], s, by rw [h1, List.append_assoc], h2, h3⟩

theorem wasMounted_now {j : MountJob} {es : List MountEvent} {s : MountState} (h : MountRun j es s) (hs : IsMounted s) :
    WasMounted j es := ⟨es, [], s, by simp, h, hs⟩

/-- Opening a file as an image ends, with or without success. -/
theorem mountImage_ends (img : Bytes) (fuel : Nat) :
    (∃ m c, mountImage (fileDev img) fuel = .ok (m, c)) ∨ ∃ e, mountImage (fileDev img) fuel = .err e := by
  have h1 := (C07_offset_none (fileDev img) (fileDev_sane img _)).1
  unfold mountImage
  rcases h1 with ⟨o, h1⟩ | h1
  · rw [h1]
    have ho : o < 2 ^ 44 := by
      obtain ⟨before, after, h2, _, _⟩ := (C07_offset_first_valid (fileDev img) (fileDev_sane img _) o).1 h1
      have : o ∈ partitionOffsets := by rw [h2]; simp
      revert this
      unfold partitionOffsets
      simp only [List.mem_cons, List.not_mem_nil, or_false]
      rintro (rfl | rfl | rfl | rfl) <;> decide
    have hs : (offsetDev (fileDev img) o).SaneBelow (2 ^ 44) := by
      intro off n hoff
      show (offsetRead (fileDev img).read o off n).Returns
      unfold offsetRead
      rw [if_pos (by omega)]
      exact fileDev_sane img (2 ^ 45) _ _ (by omega)
    rcases C06_read_volume_total _ hs with ⟨v, h2⟩ | h2
    · left; rw [Res.ok_bind, h2]; exact ⟨_, _, rfl⟩
    · right; rw [Res.ok_bind, h2]; exact ⟨_, rfl⟩
  · right; rw [h1]; exact ⟨_, rfl⟩

theorem start_step {j : MountJob} (p : ParentAt) (k : Nat) : ∃ sv, serverStep j ⟨p, .started, k⟩ = some ⟨p, sv, k⟩ ∧
    ((∃ m c, sv = .opened m c ∧ mountImage (fileDev j.image) j.fuel = .ok (m, c) ∧ j.runtime = true) ∨
      sv = .failing 1 ∧ ¬ CanOpen j) := by
  unfold serverStep
  simp only
  split
  · rename_i hr
    rcases mountImage_ends j.image j.fuel with ⟨m, c, h⟩ | ⟨e, h⟩
    · rw [h]; exact ⟨_, rfl, .inl ⟨m, c, rfl, rfl, hr⟩⟩
    · rw [h]; exact ⟨_, rfl, .inr ⟨rfl, by rintro ⟨_, m, c, h'⟩; rw [h] at h'; cases h'⟩⟩
  · rename_i hr; exact ⟨_, rfl, .inr ⟨rfl, by rintro ⟨h, _⟩; exact hr h⟩⟩

/-- An image that cannot be opened is never mounted. -/
theorem never_mounted {j : MountJob} (hc : ¬ CanOpen j) {es : List MountEvent} {s : MountState} (h : MountRun j es s) :
    ¬ IsMounted s := by
  have : s.server = .forked ∨ s.server = .started ∨ (∃ n, s.server = .failing n) ∨ (∃ n, s.server = .leaving n) ∨
      (∃ n, s.server = .exited n) ∨ s.server = .killed := by
    refine runMount_inv (j := j) (P := fun s => s.server = .forked ∨ s.server = .started ∨ (∃ n, s.server = .failing n) ∨
      (∃ n, s.server = .leaving n) ∨ (∃ n, s.server = .exited n) ∨ s.server = .killed) ?_ ?_ h
    · intro s e s' _ hp hs
      cases hs with
      | sOpen h1 h2 => exact absurd ⟨h1, _, _, h2⟩ hc
      | _ => simp_all
    · unfold MountJob.start; split <;> simp
  rintro ⟨m, c, hm⟩
  rw [hm] at this
  simp at this

/-- C112 is false: images that cannot be opened.  The command succeeds, nobody killed a process, and the image is not
mounted: it never is. -/
theorem C112_bad_image_false {j : MountJob} (hf : j.fork = true) (hc : ¬ CanOpen j) :
    (∃ es s, MountRun j es s ∧ NoKill es ∧ commandStatus s = some 0 ∧ s.server = .exited 1) ∧
    ∀ es s, MountRun j es s → ¬ IsMounted s := by
  refine ⟨?_, fun es s h => never_mounted hc h⟩
  obtain ⟨sv, h1, h2⟩ := start_step (j := j) .forked 0
  rcases h2 with ⟨m, c, _, h2, h3⟩ | ⟨rfl, _⟩
  · exact absurd ⟨h3, m, c, h2⟩ hc
  refine ⟨[.server, .server, .server, .server, .parent, .parent], ⟨.exited 0, .exited 1, 0⟩, ?_, by simp [NoKill], rfl, rfl⟩
  unfold MountRun MountJob.start
  rw [if_pos hf]
  have e1 : mountStep j ⟨.forked, .forked, 0⟩ .server = some ⟨.forked, .started, 0⟩ := rfl
  have e2 : mountStep j ⟨.forked, .started, 0⟩ .server = some ⟨.forked, .failing 1, 0⟩ := h1
  simp only [runMount, e1, e2]
  rfl

example : (emptyJob true).fork = true ∧ ¬ CanOpen (emptyJob true) := ⟨rfl, emptyJob_fails true⟩

/-- Once mounted, the image is not about to be mounted any more. -/
theorem mounted_not_told {j : MountJob} {es : List MountEvent} {s s' : MountState} (hs : IsMounted s)
    (h : runMount j es s = some s') : ∀ m c, s'.server ≠ .told m c := by
  have : (∃ m c, s'.server = .serving m c) ∨ (∃ n, s'.server = .leaving n) ∨ (∃ n, s'.server = .exited n) ∨
      s'.server = .stuck ∨ s'.server = .killed := by
    refine runMount_inv (j := j) (P := fun s => (∃ m c, s.server = .serving m c) ∨ (∃ n, s.server = .leaving n) ∨
      (∃ n, s.server = .exited n) ∨ s.server = .stuck ∨ s.server = .killed) ?_ (.inl hs) h
    intro s e s' _ hp hs
    cases hs <;> simp_all
  intro m c hm
  rw [hm] at this
  simp at this

/-- C112 is false: when the command ends.  Even for an image that can be opened the command can end, with success, before
the image is mounted. -/
theorem C112_early_false {j : MountJob} (hf : j.fork = true) (hc : CanOpen j) :
    ∃ es s, MountRun j es s ∧ NoKill es ∧ commandStatus s = some 0 ∧ ¬ WasMounted j es := by
  obtain ⟨sv, h1, h2⟩ := start_step (j := j) .forked 0
  rcases h2 with ⟨m, c, rfl, h2, h3⟩ | ⟨_, h⟩
  · have hrun : MountRun j [.server, .server, .server, .parent, .parent] ⟨.exited 0, .told m c, 0⟩ := by
      unfold MountRun MountJob.start
      rw [if_pos hf]
      have e1 : mountStep j ⟨.forked, .forked, 0⟩ .server = some ⟨.forked, .started, 0⟩ := rfl
      have e2 : mountStep j ⟨.forked, .started, 0⟩ .server = some ⟨.forked, .opened m c, 0⟩ := h1
      simp only [runMount, e1, e2]
      rfl
    refine ⟨_, _, hrun, by simp [NoKill], rfl, ?_⟩
    rintro ⟨es1, es2, s, he, hr, hm⟩
    unfold MountRun at hrun
    rw [he] at hrun
    obtain ⟨s1, g1, g2⟩ := runMount_append.1 hrun
    rw [show s1 = s from Option.some.inj (g1.symm.trans hr)] at g2
    exact mounted_not_told hm g2 m c rfl
  · exact absurd hc h

example : (twoJob true).fork = true ∧ CanOpen (twoJob true) := ⟨rfl, twoJob_opens true⟩

/-- C112 (partial: the parent waits until the image has been opened).  Missing: that a failure is reported, and that the
image is mounted, see `C112_bad_image_false` and `C112_early_false`.  If the image can be opened and mounted and nobody
kills a process, then, when the command ends, its status is 0 and the image has been mounted, or mounting it is the next
thing the other process does. -/
theorem C112_mounts_partial {j : MountJob} (hf : j.fork = true) (hc : CanOpen j) (hm : j.mounts = true)
    {es : List MountEvent} {s : MountState} (h : MountRun j es s) (hk : NoKill es) {n : Nat}
    (hn : commandStatus s = some n) :
    n = 0 ∧ (WasMounted j es ∨ ∃ s', mountStep j s .server = some s' ∧ IsMounted s') := by
  refine ⟨C112_status_false hf h hn, ?_⟩
  have hF := forking_run hf h
  have key : NotReported s ∧ (∀ n, s.server ≠ .failing n) ∧ (s.parent = .forked ∨ s.parent = .waiting) ∨
      (∃ m c, s.server = .told m c) ∨ WasMounted j es := by
    refine (mountRun_trace (j := j) (P := fun es s => NoKill es → NotReported s ∧ (∀ n, s.server ≠ .failing n) ∧
      (s.parent = .forked ∨ s.parent = .waiting) ∨ (∃ m c, s.server = .told m c) ∨ WasMounted j es) ?_ ?_ h) hk
    · intro _
      left
      unfold MountJob.start
      rw [if_pos hf]
      exact ⟨.inl rfl, nofun, .inl rfl⟩
    · intro es s e s' hr hp hs hrun' hk'
      have hke : NoKill es := ⟨fun h => hk'.1 (List.mem_append_left _ h), fun h => hk'.2 (List.mem_append_left _ h)⟩
      have hF := forking_run hf hr
      rcases hp hke with ⟨h1, h2, h3⟩ | ⟨m, c, h1⟩ | h1
      · cases hs with
        | pFork => exact .inl ⟨h1, h2, .inr rfl⟩
        | pRead hk0 => have := hF.empty h1; simp only at this; omega
        | @pEof sv hw =>
          rcases h1 with hr | hr | ⟨m, c, hr⟩ | ⟨n, hr⟩ <;> (simp only at hr; subst hr; simp [MountState.writable] at hw)
        | sFork => exact .inl ⟨.inr (.inl rfl), nofun, h3⟩
        | sOpen _ _ => exact .inl ⟨.inr (.inr (.inl ⟨_, _, rfl⟩)), nofun, h3⟩
        | sFail _ _ hx => exact absurd hc hx
        | sAlone => simp at h3
        | sTell _ _ => exact .inr (.inl ⟨_, _, rfl⟩)
        | sBroken _ hx => rcases h3 with h3 | h3 <;> (simp only at h3; subst h3; simp [MountState.readable] at hx)
        | fAlone => exact absurd rfl (h2 _)
        | fTell _ _ => exact absurd rfl (h2 _)
        | fBroken _ _ => exact absurd rfl (h2 _)
        | killP _ => exact absurd (by simp) hk'.1
        | killS _ => exact absurd (by simp) hk'.2
        | _ => exact absurd h1 (by simp [NotReported])
      · cases hs with
        | sMount _ => exact .inr (.inr (wasMounted_now hrun' ⟨_, _, rfl⟩))
        | sNoMount hx => rw [hm] at hx; cases hx
        | killS _ => exact absurd (by simp) hk'.2
        | pFork => exact .inr (.inl ⟨m, c, h1⟩)
        | pRead _ => exact .inr (.inl ⟨m, c, h1⟩)
        | pEof _ => exact .inr (.inl ⟨m, c, h1⟩)
        | killP _ => exact .inr (.inl ⟨m, c, h1⟩)
        | _ => simp at h1
      · exact .inr (.inr (wasMounted_more h1))
  rcases key with ⟨h1, _, h3⟩ | ⟨m, c, h1⟩ | h1
  · unfold commandStatus at hn
    rcases h3 with h3 | h3 <;> (rw [h3] at hn; cases hn)
  · right
    obtain ⟨p, sv, k⟩ := s
    simp only at h1
    subst h1
    refine ⟨⟨p, .serving m c, k⟩, ?_, m, c, rfl⟩
    simp [mountStep, serverStep, hm]
  · exact .inl h1

example : ∃ es s, MountRun (twoJob true) es s ∧ NoKill es ∧ commandStatus s = some 0 ∧ WasMounted (twoJob true) es :=
  have h := opened_run (j := twoJob true) rfl rfl rfl two_mounts
  ⟨_, _, h, by simp [NoKill], rfl, wasMounted_now h ⟨_, _, rfl⟩⟩

/-- C112 (the rest of what holds): without a fork the status tells what happened.  The command ends with status 0 exactly
if the image was mounted and then unmounted. -/
theorem C112_alone {j : MountJob} (hf : j.fork = false) {es : List MountEvent} {s : MountState} (h : MountRun j es s)
    {n : Nat} (hn : commandStatus s = some n) : (n = 0 ↔ .unmount ∈ es) ∧ (.unmount ∈ es → WasMounted j es) := by
  have key : s.parent = .absent ∧ (.unmount ∈ es → WasMounted j es) ∧
      (.unmount ∈ es → s.server = .leaving 0 ∨ s.server = .exited 0 ∨ s.server = .killed) ∧
      (.unmount ∉ es → s.server ≠ .leaving 0 ∧ s.server ≠ .exited 0 ∧ s.server ≠ .failing 0) := by
    refine mountRun_trace (j := j) (P := fun es s => s.parent = .absent ∧ (.unmount ∈ es → WasMounted j es) ∧
      (.unmount ∈ es → s.server = .leaving 0 ∨ s.server = .exited 0 ∨ s.server = .killed) ∧
      (.unmount ∉ es → s.server ≠ .leaving 0 ∧ s.server ≠ .exited 0 ∧ s.server ≠ .failing 0)) ?_ ?_ h
    · unfold MountJob.start
      rw [if_neg (by simp [hf])]
      exact ⟨rfl, nofun, nofun, fun _ => ⟨nofun, nofun, nofun⟩⟩
    · intro es s e s' hr ⟨h1, h2, h3, h4⟩ hs _
      by_cases hu : MountEvent.unmount ∈ es
      · have hu' : MountEvent.unmount ∈ es ++ [e] := List.mem_append_left _ hu
        refine ⟨?_, fun _ => wasMounted_more (h2 hu), fun _ => ?_, fun hx => absurd hu' hx⟩
        · cases hs <;> simp_all [ParentAt.alive]
        · have := h3 hu
          cases hs <;> simp_all
      · have h5 := h4 hu
        cases hs with
        | unmount =>
          exact ⟨h1, fun _ => wasMounted_more (wasMounted_now hr ⟨_, _, rfl⟩), fun _ => .inl rfl, fun hx => absurd (by simp) hx⟩
        | _ => refine ⟨?_, ?_, ?_, ?_⟩ <;> simp_all [ParentAt.alive, panicStatus]
  obtain ⟨h1, h2, h3, h4⟩ := key
  unfold commandStatus at hn
  rw [h1] at hn
  simp only at hn
  split at hn
  · rename_i n' hs
    cases hn
    refine ⟨⟨fun h0 => ?_, fun hu => ?_⟩, h2⟩
    · subst h0
      exact Classical.byContradiction fun hu => (h4 hu).2.1 hs
    · have := h3 hu
      rw [hs] at this
      simpa using this
  · cases hn

example : ∃ es s, MountRun (twoJob false) es s ∧ commandStatus s = some 0 :=
  ⟨_, _, runMount_append.2 ⟨_, alone_run rfl rfl rfl two_mounts, (rfl : runMount _ [.unmount, .server] _ = _)⟩, rfl⟩

example : ∃ es s, MountRun (emptyJob false) es s ∧ commandStatus s = some 1 := by
  obtain ⟨sv, h1, h2⟩ := start_step (j := emptyJob false) .absent 0
  rcases h2 with ⟨m, c, _, h2, h3⟩ | ⟨rfl, _⟩
  · exact absurd ⟨h3, m, c, h2⟩ (emptyJob_fails false)
  refine ⟨[.server, .server, .server], ⟨.absent, .exited 1, 0⟩, ?_, rfl⟩
  have e1 : mountStep (emptyJob false) ⟨.absent, .started, 0⟩ .server = some ⟨.absent, .failing 1, 0⟩ := h1
  unfold MountRun MountJob.start
  rw [if_neg (by decide)]
  simp only [runMount, e1]
  rfl

/-- Steps the parent can still take. -/
def parentLeft : ParentAt → Nat
  | .forked => 2
  | .waiting => 1
  | _ => 0

/-- Steps the serving process can still take. -/
def serverLeft : ServerAt → Nat
  | .forked => 5
  | .started => 4
  | .opened _ _ => 3
  | .failing _ => 2
  | .told _ _ => 2
  | .serving _ _ => 1
  | .leaving _ => 1
  | _ => 0

theorem ownSteps_bound {j : MountJob} : ∀ {es : List MountEvent} {s s' : MountState}, runMount j es s = some s' →
    ownSteps es + (parentLeft s'.parent + serverLeft s'.server) ≤ parentLeft s.parent + serverLeft s.server := by
  intro es
  induction es with
  | nil => intro s s' h; cases h; simp [ownSteps]
  | cons e es ih =>
    intro s s' h
    unfold runMount at h
    split at h
    · rename_i s1 h1
      have h2 := ih h
      have hown : ownSteps (e :: es) = ownSteps es + ownSteps [e] := by
        cases e <;> simp [ownSteps]
      have h3 : ownSteps [e] + (parentLeft s1.parent + serverLeft s1.server) ≤ parentLeft s.parent + serverLeft s.server := by
        cases mountStep_steps h1 with
        | @killP p sv k hp => cases p <;> simp_all [ownSteps, parentLeft, serverLeft, ParentAt.alive]
        | killS => simp [ownSteps, parentLeft, serverLeft]
        | _ => simp [ownSteps, parentLeft, serverLeft] <;> omega
      omega
    · cases h

/-- C112, termination.  However the two processes are scheduled, they take at most seven steps by themselves; and when
neither of them can go on, the parent has ended, so that the command always returns. -/
theorem C112_returns {j : MountJob} (hf : j.fork = true) {es : List MountEvent} {s : MountState} (h : MountRun j es s) :
    ownSteps es ≤ 7 ∧
    (mountStep j s .parent = none → mountStep j s .server = none → s.parent = .exited 0 ∨ s.parent = .killed) := by
  refine ⟨?_, ?_⟩
  · have := ownSteps_bound h
    have h0 : parentLeft j.start.parent + serverLeft j.start.server = 7 := by
      unfold MountJob.start; rw [if_pos hf]; rfl
    omega
  · intro hp hs
    obtain ⟨h1, h2, h3, h4⟩ := forking_run hf h
    obtain ⟨p, sv, k⟩ := s
    cases p with
    | absent => exact absurd rfl h1
    | forked => simp [mountStep, parentStep] at hp
    | exited n => left; rw [h2 n rfl]
    | killed => exact .inr rfl
    | waiting =>
      exfalso
      simp only [mountStep, parentStep] at hp
      split at hp
      · cases hp
      · split at hp
        · rename_i hw
          simp only [MountState.writable, Bool.false_or] at hw
          cases sv with
          | forked => simp [mountStep, serverStep] at hs
          | started =>
            obtain ⟨sv', g, _⟩ := start_step (j := j) .waiting k
            simp only [mountStep, g] at hs
            cases hs
          | opened m c => simp [mountStep, serverStep, MountState.readable] at hs
          | failing n => simp [mountStep, serverStep, MountState.readable] at hs
          | _ => simp at hw
        · cases hp

example : ∃ es s, MountRun (twoJob true) es s ∧ mountStep (twoJob true) s .parent = none ∧
    mountStep (twoJob true) s .server = none ∧ ownSteps es = 6 :=
  ⟨_, _, opened_run rfl rfl rfl two_mounts, rfl, rfl, rfl⟩

/-- C112, killing.  If the parent is killed before the other process has reported to it, the image is not mounted. -/
theorem C112_parent_killed {j : MountJob} {es : List MountEvent} {s : MountState} (_h : MountRun j es s)
    (hp : s.parent = .killed) (hr : NotReported s) {es' : List MountEvent} {s' : MountState}
    (h' : runMount j es' s = some s') : ¬ IsMounted s' := by
  have : s'.parent = .killed ∧ (NotReported s' ∨ (∃ n, s'.server = .leaving n) ∨ (∃ n, s'.server = .exited n) ∨
      s'.server = .killed) := by
    refine runMount_inv (j := j) (P := fun s' => s'.parent = .killed ∧ (NotReported s' ∨ (∃ n, s'.server = .leaving n) ∨
      (∃ n, s'.server = .exited n) ∨ s'.server = .killed)) ?_ ⟨hp, .inl hr⟩ h'
    intro s e s' _ ⟨h1, h2⟩ hs
    cases hs <;> simp_all [NotReported, MountState.readable, ParentAt.alive]
  rintro ⟨m, c, hm⟩
  have h2 := this.2
  simp [NotReported, hm] at h2

example : ∃ es s, MountRun (twoJob true) es s ∧ s.parent = .killed ∧ NotReported s :=
  ⟨[.server, .killParent], ⟨.killed, .started, 0⟩, rfl, rfl, .inr (.inl rfl)⟩

/-- C112, arguments.  Everything that is wrong with the arguments is found before the fork: the command ends with a status
other than 0 exactly if the mount point is not a directory, the source is not a file, or the options are not understood;
otherwise it goes on with the image and the options. -/
theorem C112_arguments (h : Host) (fs : HostFs) (runtime mounts : Bool) (fuel : Nat) (source mountPoint : Str)
    (args : List Str) :
    ((∃ n, mountProgram h fs runtime mounts fuel source mountPoint args = .exits n ∧ n ≠ 0) ↔
      (¬ ∃ p, h.stat fs mountPoint = some (p, .dir)) ∨ (¬ ∃ p b, h.stat fs source = some (p, .file b)) ∨
      ∃ p b, h.stat fs source = some (p, .file b) ∧ convertMountOpts (pathStr p) args = none) ∧
    (∀ p q b fork opts, h.stat fs mountPoint = some (p, .dir) → h.stat fs source = some (q, .file b) →
      convertMountOpts (pathStr q) args = some (fork, opts) →
      mountProgram h fs runtime mounts fuel source mountPoint args = .runs ⟨b, fork, runtime, mounts, fuel⟩ opts) := by
  refine ⟨?_, ?_⟩
  · unfold mountProgram
    split
    · rename_i p hp
      split
      · rename_i q b hq
        split
        · rename_i fork opts ho
          simp [hp, hq, ho]
        · rename_i ho
          simp [hp, hq, ho]
      · rename_i q hq
        simp [hp, hq, panicStatus]
      · rename_i hq
        simp [hp, hq]
    · rename_i hno
      constructor
      · intro _; exact .inl (by rintro ⟨p, hp⟩; exact hno p hp)
      · intro _; exact ⟨1, rfl, by decide⟩
  · intro p q b fork opts h1 h2 h3
    simp [mountProgram, h1, h2, h3]

/-- A host with a file and a directory. -/
def mountFs : HostFs := fun p =>
  if p = [] then some .dir else if p = [['m']] then some .dir else if p = [['x']] then some (.file [1]) else none

def mountHost : Host := ⟨[], fun _ => .none⟩

example : mountHost.stat mountFs ['/', 'm'] = some ([['m']], .dir) ∧ mountHost.stat mountFs ['x'] = some ([['x']], .file [1]) ∧
    (convertMountOpts (pathStr [['x']]) []).isSome ∧ convertMountOpts (pathStr [['x']]) [['?']] = none := by
  refine ⟨by decide +kernel, by decide +kernel, by decide +kernel, by decide +kernel⟩

example : ¬ ∃ p b, mountHost.stat mountFs ['m'] = some (p, .file b) := by
  rintro ⟨p, b, h⟩
  have : mountHost.stat mountFs ['m'] = some ([['m']], .dir) := by decide +kernel
  rw [this] at h
  cases h

theorem fuseRun_snoc {m : Mount} : ∀ {ops : List FuseOp} {c c1 c2 : FuseCache} {rs : List FuseReply} {op : FuseOp}
    {r : FuseReply}, fuseRun m c ops = .ok (rs, c1) → fuseStep m c1 op = .ok (r, c2) →
    fuseRun m c (ops ++ [op]) = .ok (rs ++ [r], c2) := by
  intro ops
  induction ops with
  | nil => intro c c1 c2 rs op r h h'; cases h; simp [fuseRun, h']
  | cons o ops ih =>
    intro c c1 c2 rs op r h h'
    rw [List.cons_append, fuseRun]
    rw [fuseRun] at h
    obtain ⟨⟨r0, c0⟩, g1, h⟩ := Res.bind_eq_ok.1 h
    obtain ⟨⟨rs0, c0'⟩, g2, h⟩ := Res.bind_eq_ok.1 h
    cases h
    rw [g1, Res.ok_bind]
    simp only
    rw [ih g2 h']
    rfl

theorem mountImage_new {dev : Dev} {fuel : Nat} {m : Mount} {c : FuseCache} (h : mountImage dev fuel = .ok (m, c)) :
    c = .new := by
  unfold mountImage at h
  obtain ⟨_, _, h⟩ := Res.bind_eq_ok.1 h
  obtain ⟨_, _, h⟩ := Res.bind_eq_ok.1 h
  cases h; rfl

theorem getOrAssign_no_err {c : FuseCache} {d : DirEnt} (e : Err) : c.getOrAssign d ≠ .err e := by
  unfold FuseCache.getOrAssign
  split
  · nofun
  · split <;> nofun

theorem addRecords_no_err {m : Mount} {full : List DirRec → DirRec → Bool} (e : Err) : ∀ {f idx : Nat} {s : Scan}
    {recs : List DirRec} {c : FuseCache}, addRecords m full f idx s recs c ≠ .err e := by
  intro f
  induction f with
  | zero => intro idx s recs c; nofun
  | succ f ih =>
    intro idx s recs c
    unfold addRecords
    split
    · rename_i d s' _
      cases hg : c.getOrAssign d with
      | ok r =>
        simp only [Res.ok_bind]
        split
        · nofun
        · exact ih
      | err e' => exact absurd hg (getOrAssign_no_err e')
      | panic => nofun
      | hang => nofun
    all_goals nofun

/-- A request is answered, or the program dies. -/
theorem fuseStep_no_err {m : Mount} {c : FuseCache} {op : FuseOp} (e : Err) : fuseStep m c op ≠ .err e := by
  cases op with
  | lookup parent name =>
    simp only [fuseStep, fuseLookup]
    split
    · nofun
    · split
      · nofun
      · split
        · rename_i d _
          cases hg : c.getOrAssign d with
          | ok r => nofun
          | err e' => exact absurd hg (getOrAssign_no_err e')
          | panic => nofun
          | hang => nofun
        all_goals nofun
  | getattr ino => simp [fuseStep]
  | read ino offset size =>
    simp only [fuseStep]
    cases hr : fuseRead m c ino offset size with
    | err e' =>
      exfalso
      unfold fuseRead at hr
      split at hr
      · cases hr
      · cases hr
      · split at hr
        · cases hr
        · split at hr <;> cases hr
    | ok r => nofun
    | panic => nofun
    | hang => nofun
  | readdir ino offset full =>
    simp only [fuseStep, fuseReaddir]
    split
    · nofun
    · split
      · nofun
      · nofun
      · nofun
      · split
        · nofun
        · split
          · nofun
          · nofun
          · nofun
          · exact addRecords_no_err e
  | _ => simp [fuseStep]

/-- C112, what is mounted.  While the image is mounted, what answers the requests is the image as it was opened, after
the requests that were made before; so that what C52 to C55, C70 and C71 say holds for it. -/
theorem C112_serves_image {j : MountJob} {es : List MountEvent} {s : MountState} (h : MountRun j es s) {m : Mount}
    {c : FuseCache} (hs : s.server = .serving m c) :
    mountImage (fileDev j.image) j.fuel = .ok (m, .new) ∧ ∃ rs, fuseRun m .new (requests es) = .ok (rs, c) := by
  have key : (NotReported s ∨ (∃ m c, s.server = .told m c) → requests es = []) ∧
      (∀ m c, s.server = .opened m c ∨ s.server = .told m c → mountImage (fileDev j.image) j.fuel = .ok (m, c)) ∧
      (∀ m c, s.server = .serving m c → mountImage (fileDev j.image) j.fuel = .ok (m, .new) ∧
        ∃ rs, fuseRun m .new (requests es) = .ok (rs, c)) := by
    refine mountRun_trace (j := j) (P := fun es s => (NotReported s ∨ (∃ m c, s.server = .told m c) → requests es = []) ∧
      (∀ m c, s.server = .opened m c ∨ s.server = .told m c → mountImage (fileDev j.image) j.fuel = .ok (m, c)) ∧
      (∀ m c, s.server = .serving m c → mountImage (fileDev j.image) j.fuel = .ok (m, .new) ∧
        ∃ rs, fuseRun m .new (requests es) = .ok (rs, c))) ?_ ?_ h
    · refine ⟨fun _ => rfl, ?_, ?_⟩ <;> (unfold MountJob.start; split <;> simp)
    · intro es s e s' hr ⟨h1, h2, h3⟩ hs _
      have hq : requests (es ++ [e]) = requests es ++ requests [e] := List.filterMap_append
      rw [hq]
      cases hs with
      | @rOk p k m c op r c' hf =>
        refine ⟨by simp [NotReported], by simp, ?_⟩
        intro m' c1 hx
        cases hx
        obtain ⟨g1, rs, g2⟩ := h3 _ _ rfl
        exact ⟨g1, rs ++ [r], fuseRun_snoc g2 hf⟩
      | rErr hf => exact absurd hf (fuseStep_no_err _)
      | @sMount p k m c hm =>
        refine ⟨by simp [NotReported], by simp, ?_⟩
        intro m' c' hx
        cases hx
        have g := h2 _ _ (.inr rfl)
        have hc := mountImage_new g
        subst hc
        refine ⟨g, [], ?_⟩
        rw [h1 (.inr ⟨_, _, rfl⟩)]
        rfl
      | pFork => rw [show requests [MountEvent.parent] = [] from rfl, List.append_nil]; exact ⟨h1, h2, h3⟩
      | pRead => rw [show requests [MountEvent.parent] = [] from rfl, List.append_nil]; exact ⟨h1, h2, h3⟩
      | pEof => rw [show requests [MountEvent.parent] = [] from rfl, List.append_nil]; exact ⟨h1, h2, h3⟩
      | killP => rw [show requests [MountEvent.killParent] = [] from rfl, List.append_nil]; exact ⟨h1, h2, h3⟩
      | _ => refine ⟨?_, ?_, ?_⟩ <;> simp_all [NotReported, requests]
  exact key.2.2 m c hs

example : ∃ es s m c, MountRun (twoJob true) es s ∧ s.server = .serving m c ∧ requests es = [.getattr 1] :=
  ⟨_, _, _, _, runMount_append.2 ⟨_, opened_run rfl rfl rfl two_mounts, (rfl : runMount _ [.request (.getattr 1)] _ = _)⟩, rfl,
    rfl⟩

end Xdvdfs.Props
