import Verif.Props.CliPaths

/-!
# C85 for tasks with any outputs: the last one wins
-/

namespace Xdvdfs.Props

open Spec

/-- The tasks of create mode, one after the other, where outputs may coincide. -/
theorem CreateLast.tasks_ok {h : Host} {t : Tool} {R : HostFs → DirReader} {all : List ((Str × Option Str) × Faults)}
    {fs0 : HostFs} (hn : ProperNames fs0) (hw0 : WellFormedHost fs0) (hcwd : fs0 h.cwd = some .dir)
    (hcout : ∀ x ∈ all, ¬ TaskOut h x.1 h.cwd)
    (houtside : ∀ x ∈ all, ∀ y ∈ all, ∀ o, TaskOut h y.1 o → ¬ placeOf h x.1.1 <+: o) :
    ∀ (tasks : List ((Str × Option Str) × Faults)) (fs : HostFs) {st : HostFs}, (∀ x ∈ tasks, x ∈ all) →
    WellFormedHost fs → OnlyOutputs h all fs0 fs →
    (exisoCreateTasks h t (fun fs src => stdFs (R fs) fs src) tasks fs).2 = .ok st →
    OnlyOutputs h tasks fs st ∧ ∀ before x after, tasks = before ++ x :: after →
      (∀ y ∈ after, ∀ o, TaskOut h x.1 o → ¬ TaskOut h y.1 o) → fs0 (placeOf h x.1.1) = some .dir ∧ ∃ fs1 out b,
      WellFormedHost fs1 ∧ OnlyOutputs h all fs0 fs1 ∧ TaskOut h x.1 out ∧
      packFile (stdFs (R fs1) fs1 (placeOf h x.1.1)) (cliPolicy t.early) x.2 t.fuel = (.ok (), b) ∧
      st out = some (.file b.img) := by
  intro tasks
  induction tasks with
  | nil =>
    intro fs st _ _ _ hs
    simp only [exisoCreateTasks, Res.ok.injEq] at hs
    subst hs
    exact ⟨fun q hq => absurd rfl hq, fun before x after he => by simp at he⟩
  | cons y rest ih =>
    intro fs st hall hw hoo hs
    obtain ⟨⟨dir, file⟩, faults⟩ := y
    have hyall := hall _ List.mem_cons_self
    have hsame : ∀ q, placeOf h dir <+: q → fs q = fs0 q := by
      intro q hq
      apply Classical.byContradiction
      intro hne
      obtain ⟨x, hx, ho⟩ := hoo q hne
      exact houtside _ hyall x hx q ho hq
    have hcwd' : fs h.cwd = some .dir := by
      rw [← hcwd]
      apply Classical.byContradiction
      intro hne
      obtain ⟨x, hx, ho⟩ := hoo _ hne
      exact hcout x hx ho
    simp only [exisoCreateTasks] at hs
    cases hr : (exisoCreateSingle h t (fun fs src => stdFs (R fs) fs src) faults fs dir file).2 with
    | ok fs' =>
      rw [hr] at hs
      simp only at hs
      obtain ⟨out, b, h1, h2, h3, h4, h5, h6, _⟩ := exisoCreateSingle_ok hw hcwd' (by
        intro hne
        rw [hsame _ (List.prefix_refl _)] at hne
        exact properNames_comps hn hw0 _ rfl hne) hr
      have hset : ∀ n, OnlyOutputs h all fs0 (fs.set out n) := by
        intro n q hq
        by_cases he : q = out
        · subst he; exact ⟨_, hyall, h1⟩
        · rw [set_other he] at hq; exact hoo q hq
      obtain ⟨i1, i2⟩ := ih fs' (fun x hx => hall x (List.mem_cons_of_mem _ hx)) h6
        (by rw [h4]; exact hset _) hs
      refine ⟨?_, ?_⟩
      · intro q hq
        by_cases he : st q = fs' q
        · rw [he, h4] at hq
          by_cases hqo : q = out
          · subst hqo; exact ⟨_, List.mem_cons_self, h1⟩
          · rw [set_other hqo] at hq; exact absurd rfl hq
        · obtain ⟨x, hx, ho⟩ := i1 q he
          exact ⟨x, List.mem_cons_of_mem _ hx, ho⟩
      · intro before x after hsplit hlast
        rcases List.cons_eq_append_iff.1 hsplit with ⟨rfl, hx⟩ | ⟨before', rfl, hx⟩
        · obtain ⟨rfl, rfl⟩ := List.cons.inj hx
          refine ⟨by rw [← hsame _ (List.prefix_refl _)]; exact h2, fs.set out (.file []), out, b, h5, hset _, h1, h3, ?_⟩
          have : st out = fs' out := by
            apply Classical.byContradiction
            intro hne
            obtain ⟨z, hz, ho⟩ := i1 _ hne
            exact hlast z hz out h1 ho
          rw [this, h4, set_same]
        · exact i2 before' x after hx hlast
    | err e => rw [hr] at hs; cases hs
    | panic => rw [hr] at hs; cases hs
    | hang => rw [hr] at hs; cases hs

/-- C85 for tasks with any outputs: after a success, every output holds an image of the directory of the last of the tasks
that have this output; an image of an earlier task is gone.  The conditions on the outputs are those of
`C85_create_partial`, except that outputs may coincide. -/
theorem C85_last_wins (h : Host) (t : Tool) (R : HostFs → DirReader) {tasks : List ((Str × Option Str) × Faults)}
    {fs st : HostFs} (hn : ProperNames fs) (hw : WellFormedHost fs) (hcwd : fs h.cwd = some .dir)
    (hread : ∀ fs', OnlyOutputs h tasks fs fs' → ReadsHost (R fs') fs')
    (hclose : ∀ fs' x, OnlyOutputs h tasks fs fs' → x ∈ tasks →
      FlushedClean t x.2 (stdFs (R fs') fs' (placeOf h x.1.1)))
    (hcout : ∀ x ∈ tasks, ¬ TaskOut h x.1 h.cwd)
    (houtside : ∀ x ∈ tasks, ∀ y ∈ tasks, ∀ o, TaskOut h y.1 o → ¬ placeOf h x.1.1 <+: o)
    (hs : (exisoCreateTasks h t (fun fs src => stdFs (R fs) fs src) tasks fs).2 = .ok st) :
    (∀ before x after, tasks = before ++ x :: after → (∀ y ∈ after, ∀ o, TaskOut h x.1 o → ¬ TaskOut h y.1 o) →
      ∃ out img, TaskOut h x.1 out ∧ IsFile st out img ∧ ImageOf img fs (placeOf h x.1.1)) ∧
    OnlyOutputs h tasks fs st := by
  obtain ⟨h1, h2⟩ := CreateLast.tasks_ok hn hw hcwd hcout houtside tasks fs (fun _ hx => hx) hw
    (fun q hq => absurd rfl hq) hs
  refine ⟨fun before x after hsplit hlast => ?_, h1⟩
  have hx : x ∈ tasks := by rw [hsplit]; simp
  obtain ⟨_, fs1, out, b, k1, k2, k3, k4, k5⟩ := h2 before x after hsplit hlast
  have hsame : ∀ q, placeOf h x.1.1 <+: q → fs1 q = fs q := by
    intro q hq
    apply Classical.byContradiction
    intro hne
    obtain ⟨y, hy, ho⟩ := k2 q hne
    exact houtside _ hx y hy q ho hq
  have hbuf : b.buf = [] := by
    have := hclose fs1 x k2 hx
    unfold FlushedClean at this
    rw [k4] at this
    exact this
  refine ⟨out, b.img, k3, k5, ?_⟩
  have := packed_imageOf (t := t) (hread fs1 k2) k1 (src := placeOf h x.1.1) (by
    intro q c hne
    rw [hsame _ (by rw [List.append_assoc]; exact List.prefix_append _ _)] at hne
    exact hn _ c hne) k4 hbuf
  intro h' host dest clones hh hfresh
  obtain ⟨n, host', g1, g2, g3⟩ := this h' host dest clones hh hfresh
  exact ⟨n, host', g1, fun s hs => by rw [g2 s hs, hsame _ (List.prefix_append _ _)], g3⟩

/-- The tasks of `-c /g.1 -c /g.2`, which have the same output. -/
def clashTasks : List ((Str × Option Str) × Faults) :=
  [((['/', 'g', '.', '1'], none), fun _ => none), ((['/', 'g', '.', '2'], none), fun _ => none)]

theorem clashTasks_out {x : (Str × Option Str) × Faults} (hx : x ∈ clashTasks) {o : HostPath}
    (ho : TaskOut ⟨[], fun _ => .none⟩ x.1 o) : o = gIso := by
  simp only [clashTasks, List.mem_cons, List.not_mem_nil, or_false] at hx
  rcases hx with rfl | rfl
  · exact TaskOut.unique ho ⟨[], ['g', '.', '1'], ['g'], by decide, .inl ⟨['1'], rfl, by decide, by decide⟩, rfl⟩
  · exact TaskOut.unique ho ⟨[], ['g', '.', '2'], ['g'], by decide, .inl ⟨['2'], rfl, by decide, by decide⟩, rfl⟩

/-- The hypotheses of `C85_last_wins` hold for `-c /g.1 -c /g.2`, of which the second task is the last for `/g.iso`. -/
example : ∃ (t : Tool) (st : HostFs) (img : Bytes),
    (exisoCreateTasks ⟨[], fun _ => .none⟩ t (fun fs src => stdFs (listReader gamesDom fs) fs src) clashTasks twoGames).2 =
      .ok st ∧ IsFile st gIso img ∧ ImageOf img twoGames [['g', '.', '2']] := by
  obtain ⟨t, tasks, st, _, ht, hrun, _⟩ := C85_create_false
  have ht' : tasks = [(['/', 'g', '.', '1'], none), (['/', 'g', '.', '2'], none)] := by
    have : createTasks ['/', 'g', '.', '1'] none [['-', 'c'], ['/', 'g', '.', '2']] =
      .ok [(['/', 'g', '.', '1'], none), (['/', 'g', '.', '2'], none)] := rfl
    rw [this] at ht
    exact (Res.ok.inj ht).symm
  subst ht'
  have hrun : (exisoCreateTasks ⟨[], fun _ => .none⟩ t (fun fs src => stdFs (listReader gamesDom fs) fs src) clashTasks
      twoGames).2 = .ok st := hrun
  obtain ⟨h1, _⟩ := C85_last_wins ⟨[], fun _ => .none⟩ t (listReader gamesDom) twoGames_names twoGames_wf (by decide)
    (fun fs' ho => by
      refine listReader_reads (by decide) (fun q hq => ?_)
      by_cases he : fs' q = twoGames q
      · rw [he] at hq
        rcases twoGames_dom hq with rfl | rfl | rfl | rfl | rfl <;> decide
      · obtain ⟨x, hx, hxo⟩ := ho q he
        rw [clashTasks_out hx hxo]; decide)
    (fun fs' x _ hx => by
      have hx2 : x.2 = fun _ => none := by
        simp only [clashTasks, List.mem_cons, List.not_mem_nil, or_false] at hx
        rcases hx with rfl | rfl <;> rfl
      unfold FlushedClean
      rw [hx2]
      exact (C63_buffer_unnoticed _ _ _).2)
    (fun x hx ho => absurd (clashTasks_out hx ho) (by decide))
    (fun x hx y hy o ho => by
      rw [clashTasks_out hy ho]
      simp only [clashTasks, List.mem_cons, List.not_mem_nil, or_false] at hx
      rcases hx with rfl | rfl <;> decide)
    hrun
  obtain ⟨o, img, k1, k2, k3⟩ := h1 [((['/', 'g', '.', '1'], none), fun _ => none)]
    ((['/', 'g', '.', '2'], none), fun _ => none) [] rfl (by simp)
  have ho := clashTasks_out (x := ((['/', 'g', '.', '2'], none), fun _ => none)) (by simp [clashTasks]) k1
  subst ho
  exact ⟨t, st, img, hrun, k2, k3⟩

end Xdvdfs.Props
