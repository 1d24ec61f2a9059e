import Verif.Proof.BuildArgs
import Verif.Props.BuildImage

/-!
# C132: the way paths are written and `build-image`
-/

namespace Xdvdfs.Props

open Xdvdfs Spec

/-- C132.  What `build-image` does depends on what its arguments name, and not on how they are written: relative or
absolute, with or without slashes at the end, through `.` and `..`, from any working directory.  It does what it does with
the paths they name (first part), so that two ways of writing the same arguments have the same effect (second part).

Partial: the source has to be named by its name, unless no name for the output is derived from it; and a file as the source
has to be given with its directory.  Both are needed: see the next theorems. -/
theorem C132_arguments_partial {parse : Bytes → Option ImageSpec} {fs : HostFs} (hw : WellFormedHost fs)
    (hn : ProperNames fs) {b : BuildArgs} :
    (∀ h a t G r self faults, fs h.cwd = some .dir → (∀ p, h.faults p ≠ .refuse) → NamesArgs parse h fs a b →
      cmdBuildStrings h t G parse r self faults fs a = cmdBuildImage t G parse r self faults fs b) ∧
    (∀ h h' a a' t G r self faults, fs h.cwd = some .dir → fs h'.cwd = some .dir →
      (∀ p, h.faults p ≠ .refuse) → (∀ p, h'.faults p ≠ .refuse) → NamesArgs parse h fs a b → NamesArgs parse h' fs a' b →
      cmdBuildStrings h t G parse r self faults fs a = cmdBuildStrings h' t G parse r self faults fs a') := by
  constructor
  · intro h a t G r self faults hc hf hab
    exact build_strings hw hn hc hf hab t G r self faults
  · intro h h' a a' t G r self faults hc hc' hf hf' hab hab'
    rw [build_strings hw hn hc hf hab t G r self faults, build_strings hw hn hc' hf' hab' t G r self faults]

theorem stat_dir_slashes {h : Host} {fs : HostFs} {s : Str} (hs : s ≠ []) (k : Nat) :
    (∃ p, h.stat fs (s ++ List.replicate k '/') = some (p, .dir)) ↔ ∃ p, h.stat fs s = some (p, .dir) := by
  have hr : h.resolve fs (s ++ List.replicate k '/') = h.resolve fs s := by
    unfold Host.resolve Host.start
    rw [hostComps_slashes]
    have h0 : ¬ Char.ofNat 0 ∈ List.replicate k '/' := by
      intro hc
      exact absurd (List.mem_replicate.1 hc).2 (by decide)
    have e1 : (s ++ List.replicate k '/' = [] ∨ Char.ofNat 0 ∈ s ++ List.replicate k '/') ↔ (s = [] ∨ Char.ofNat 0 ∈ s) := by
      simp [hs, h0]
    have e2 : (s ++ List.replicate k '/').head? = s.head? := by
      cases s with
      | nil => exact absurd rfl hs
      | cons c cs => rfl
    rw [e2]
    by_cases hc : s = [] ∨ Char.ofNat 0 ∈ s
    · rw [if_pos hc, if_pos (e1.2 hc)]
    · rw [if_neg hc, if_neg (fun x => hc (e1.1 x))]
  have key : ∀ t, (∃ p, h.stat fs t = some (p, .dir)) ↔ ∃ p, h.resolve fs t = .ok p ∧ fs p = some .dir := by
    intro t
    constructor
    · rintro ⟨p, hp⟩
      exact ⟨p, (stat_some hp).1, (stat_some hp).2.2⟩
    · rintro ⟨p, hp, hd⟩
      refine ⟨p, ?_⟩
      unfold Host.stat
      rw [hp]
      simp only [hd]
  rw [key, key, hr]

/-- C132 for a source that is not a directory: with rules on the command line, slashes at its end make no difference, although
with them it does not name anything.  What is mapped is the directory it would be in. -/
theorem C132_slashes {h : Host} {fs : HostFs} {s : Str} (hs : s ≠ []) (hd : ∀ p, h.stat fs s ≠ some (p, .dir)) (k : Nat)
    {a : BuildStrings} (hr : a.rules ≠ none) (t : Tool) (G : GlobEngine) (parse : Bytes → Option ImageSpec) (r : DirReader)
    (self : Bytes) (faults : Faults) :
    cmdBuildStrings h t G parse r self faults fs { a with source := some (s ++ List.replicate k '/') } =
      cmdBuildStrings h t G parse r self faults fs { a with source := some s } := by
  have hd' : ∀ p, h.stat fs (s ++ List.replicate k '/') ≠ some (p, .dir) := by
    intro p hp
    obtain ⟨q, hq⟩ := (stat_dir_slashes hs k).1 ⟨p, hp⟩
    exact hd q hq
  have hp : pathParent (s ++ List.replicate k '/') = pathParent s := by
    unfold pathParent
    rw [List.reverse_append, List.reverse_replicate, trimTail_slashes]
  have hb : ∀ u, (∀ p, h.stat fs u ≠ some (p, .dir)) → buildPathStrings h fs { a with source := some u } =
      match pathParent u with
      | some dir => .ok (a.spec.getD u, dir)
      | none => .err .other := by
    intro u hu
    unfold buildPathStrings
    simp only [Option.getD_some]
    cases hq : h.stat fs u with
    | none => rfl
    | some q =>
      obtain ⟨q, n⟩ := q
      cases n with
      | dir => exact absurd hq (hu q)
      | file _ => rfl
  have hsp : ∀ u x, buildSpecString parse h fs { a with source := some u } x = .ok none := by
    intro u x
    unfold buildSpecString
    cases hrr : a.rules with
    | none => exact absurd hrr hr
    | some _ => split <;> first | rfl | (next h' => cases h')
  unfold cmdBuildStrings
  rw [hb _ hd, hb _ hd', hp]
  cases pathParent s with
  | none => rfl
  | some dir =>
    simp only [Res.ok_bind, hsp]
    rfl

theorem bare_fails {h : Host} {fs : HostFs} {n : Str} (hname : HostName n) (hcwd : fs h.cwd = some .dir)
    (hnd : fs (h.cwd ++ [n]) ≠ some .dir) {a : BuildStrings} (hs : a.source = some n) (parse : Bytes → Option ImageSpec)
    (t : Tool) (G : GlobEngine) (r : DirReader) (self : Bytes) (faults : Faults) :
    Failed (cmdBuildStrings h t G parse r self faults fs a) := by
  have hplace : NamesPlace h fs n (h.cwd ++ [n]) := ⟨[], h.cwd, n, rfl, hname, ⟨.inl rfl, hcwd, .inl ⟨rfl, rfl⟩⟩, rfl⟩
  have hb : buildPathStrings h fs a = .ok (a.spec.getD n, []) := by
    unfold buildPathStrings
    simp only [hs, Option.getD_some]
    split
    · next q hq =>
      rw [namesPlace_stat hplace] at hq
      exfalso
      obtain ⟨y, hy, hye⟩ := Option.map_eq_some_iff.1 hq
      cases hye
      exact hnd hy
    · rw [pathParent_bare hname]
  intro b
  unfold cmdBuildStrings
  rw [hb]
  simp only [Res.ok_bind]
  split
  · next rules source image he =>
    obtain ⟨spec, _, he⟩ := Res.bind_eq_ok.1 he
    obtain ⟨rs, _, he⟩ := Res.bind_eq_ok.1 he
    cases he
    unfold runBuildStrings
    have : h.resolve fs [] = .err .io := by unfold Host.resolve; rw [if_pos (.inl rfl)]
    rw [this]
    simp only
    split <;> nofun
  all_goals nofun

set_option maxRecDepth 20000 in
/-- C132 is false for a file that is given by its name only: `build-image xdvdfs.toml` fails, in every directory and for
every specification, although `build-image ./xdvdfs.toml` is fine with it.  The specification `b` of the second part maps
`a` to `x`. -/
theorem C132_bare_name_false :
    (∀ h fs n a parse t G r self faults, HostName n → fs h.cwd = some .dir → fs (h.cwd ++ [n]) ≠ some .dir →
      a.source = some n → Failed (cmdBuildStrings h t G parse r self faults fs a)) ∧
    ∃ h fs parse, h.cwd = [['s']] ∧ fs [['s']] = some .dir ∧ IsFile fs [['s'], ['b']] [2] ∧
      Failed (cmdBuildStrings h buildTool literalGlobs parse abReader [] (fun _ => none) fs
        ⟨none, none, none, true, some ['b'], none⟩) ∧
      (cmdBuildStrings h buildTool literalGlobs parse abReader [] (fun _ => none) fs
        ⟨none, none, none, true, some ['.', '/', 'b'], none⟩).2 = .ok ⟨fs, [([['a']], [['x']])]⟩ := by
  refine ⟨fun h fs n a parse t G r self faults h1 h2 h3 h4 => bare_fails h1 h2 h3 h4 parse t G r self faults,
    ⟨[['s']], fun _ => .none⟩, pairHost, fun _ => some ⟨none, some [(['a'], some ['x'])]⟩, rfl, by decide,
    by unfold IsFile; decide, bare_fails (by unfold HostName; decide) (by decide) (by decide) rfl _ _ _ _ _ _, ?_⟩
  have hst : (⟨[['s']], fun _ => .none⟩ : Host).stat pairHost ['.'] = some ([['s']], .dir) := by decide
  rw [(C132_arguments_partial pair_wellFormed pair_properNames (b := ⟨none, none, none, true, [['s'], ['b']], none⟩)).1 _ _
    _ _ _ _ _ (by decide) (by intro p; simp) ⟨rfl, rfl, .inl ⟨rfl, rfl⟩, .inr ⟨_, rfl, .inr ⟨by decide, ['.'], [['s']],
      ['b'], rfl, by unfold HostName; decide, .inr ⟨.inl rfl, hst⟩, rfl⟩⟩, .inl ⟨rfl, rfl⟩⟩]
  have p : ∃ out, buildPlan (fun _ => some ⟨none, some [(['a'], some ['x'])]⟩) pairHost
      ⟨none, none, none, true, [['s'], ['b']], none⟩ = .ok ⟨[(['a'], ['x'])], [['s']], out⟩ := ⟨_, by rfl⟩
  obtain ⟨out, p⟩ := p
  refine build_dry p rfl ?_
  simp only [pair_stdReadDir]; decide +kernel

/-- C132 is false for `.` and other sources that do not end in a name: without an output path nothing can be built from
them, whatever the directory and the rules; but in the same directory it works without the argument. -/
theorem C132_no_name_false :
    (∀ h fs s p a parse t G r self faults, fileName s = none → h.stat fs s = some (p, .dir) → a.source = some s →
      a.image = none → a.dryRun = false → a.rules ≠ none →
      (cmdBuildStrings h t G parse r self faults fs a).1 = [] ∧ Failed (cmdBuildStrings h t G parse r self faults fs a)) ∧
    ∃ h fs parse st img, h.cwd = [['s']] ∧ fs [['s']] = some .dir ∧ h.stat fs ['.'] = some ([['s']], .dir) ∧
      Failed (cmdBuildStrings h buildTool literalGlobs parse abReader [] (fun _ => none) fs
        ⟨none, some [['a', ':', 'x']], none, false, some ['.'], none⟩) ∧
      (cmdBuildStrings h buildTool literalGlobs parse abReader [] (fun _ => none) fs
        ⟨none, some [['a', ':', 'x']], none, false, none, none⟩).2 = .ok ⟨st, []⟩ ∧
      IsFile st [['s', '.', 'x', 'i', 's', 'o', '.', 'i', 's', 'o']] img ∧ img ≠ [] := by
  have key : ∀ (h : Host) fs s p a parse t G r self faults, fileName s = none → h.stat fs s = some (p, .dir) →
      a.source = some s → a.image = none → a.dryRun = false → a.rules ≠ none →
      (cmdBuildStrings h t G parse r self faults fs a).1 = [] ∧
        Failed (cmdBuildStrings h t G parse r self faults fs a) := by
    intro h fs s p a parse t G r self faults h1 h2 h3 h4 h5 h6
    have hb : buildPathStrings h fs a = .ok (a.spec.getD (pathJoin s specName), s) := by
      unfold buildPathStrings
      simp only [h3, Option.getD_some, h2]
    have hs : ∀ x, buildSpecString parse h fs a x = .ok none := by
      intro x
      unfold buildSpecString
      cases hr : a.rules with
      | none => exact absurd hr h6
      | some _ => split <;> first | rfl | (next h' => cases h')
    have ho : buildOutputString a none s = s := by
      unfold buildOutputString pathAddExtension pathExtension pathWithExtension
      rw [h4, h1]
      rfl
    unfold Failed cmdBuildStrings
    rw [hb]
    simp only [Res.ok_bind, hs, ho]
    split
    · next rules source image he =>
      obtain ⟨rs, _, he⟩ := Res.bind_eq_ok.1 he
      cases he
      unfold runBuildStrings
      rw [(stat_some h2).1, h5]
      simp only [Bool.false_eq_true, if_false]
      split
      · split
        · next hx => exact absurd hx (openOutput_noName h1 _)
        all_goals exact ⟨rfl, nofun⟩
      all_goals exact ⟨rfl, nofun⟩
    all_goals exact ⟨rfl, nofun⟩
  refine ⟨key, ?_⟩
  have p : buildPlan (fun _ => none) pairHost (optionArgs [['a', ':', 'x']] false) =
      .ok ⟨[(['a'], ['x'])], [['s']], .ok [['s', '.', 'x', 'i', 's', 'o', '.', 'i', 's', 'o']]⟩ := by
    rw [buildPlan_options (a := optionArgs [['a', ':', 'x']] false) (rs := [['a', ':', 'x']]) rfl
      (.inr (by simp [optionArgs]))]
    rfl
  obtain ⟨trie, t1, t2⟩ := ax_overlay
  obtain ⟨st, img, a1, a2, a3, _, _⟩ := build_succeeds (t := buildTool) (G := literalGlobs) (r := abReader) (self := [])
    (trie := trie) p rfl (by simp only [pair_stdReadDir]; exact t1) rfl ⟨by decide, by decide⟩ t2 x_ok (by decide)
  refine ⟨⟨[['s']], fun _ => .none⟩, pairHost, fun _ => none, st, img, rfl, by decide, by decide,
    (key _ _ ['.'] [['s']] _ _ _ _ _ _ _ (by decide) (by decide) rfl rfl rfl (by simp)).2, ?_, a2, ?_⟩
  · rw [(C132_arguments_partial pair_wellFormed pair_properNames (b := optionArgs [['a', ':', 'x']] false)).1 _ _
      _ _ _ _ _ (by decide) (by intro p; simp) ⟨rfl, rfl, .inl ⟨rfl, rfl⟩, .inl ⟨rfl, rfl⟩, .inl ⟨rfl, rfl⟩⟩]
    exact a1
  · rintro rfl
    simp at a3

/-- The hypotheses of C132 are met in `/s` by `build-image -m a:x ../s// ./../o`, and in `/` by
`build-image -m a:x s /o`: both name `/s` and `/o`. -/
example (parse : Bytes → Option ImageSpec) : ∃ h h' a a' b, WellFormedHost pairHost ∧ ProperNames pairHost ∧
    h.cwd = [['s']] ∧ h'.cwd = [] ∧ a ≠ a' ∧ pairHost h.cwd = some .dir ∧ pairHost h'.cwd = some .dir ∧
    (∀ p, h.faults p ≠ .refuse) ∧ (∀ p, h'.faults p ≠ .refuse) ∧
    b.source = [['s']] ∧ b.image = some [['o']] ∧ NamesArgs parse h pairHost a b ∧ NamesArgs parse h' pairHost a' b := by
  refine ⟨⟨[['s']], fun _ => .none⟩, ⟨[], fun _ => .none⟩,
    ⟨none, some [['a', ':', 'x']], none, false, some ['.', '.', '/', 's', '/', '/'], some ['.', '/', '.', '.', '/', 'o']⟩,
    ⟨none, some [['a', ':', 'x']], none, false, some ['s'], some ['/', 'o']⟩,
    ⟨none, some [['a', ':', 'x']], none, false, [['s']], some [['o']]⟩, pair_wellFormed, pair_properNames, rfl, rfl,
    by simp, by decide, by decide, by intro p; simp, by intro p; simp, rfl, rfl, ?_, ?_⟩
  · refine ⟨rfl, rfl, .inl ⟨rfl, rfl⟩, .inr ⟨_, rfl, .inl (.inl ⟨by decide, ['.', '.', '/', 's'], 2, rfl, ['.', '.', '/'], [],
      ['s'], rfl, by unfold HostName; decide, ⟨.inr rfl, by decide, .inr ⟨by decide, by decide⟩⟩, rfl⟩)⟩,
      .inr ⟨_, _, rfl, rfl, ['.', '/', '.', '.', '/'], [], ['o'], rfl, by unfold HostName; decide,
        ⟨.inr rfl, by decide, .inr ⟨by decide, by decide⟩⟩, rfl⟩⟩
  · refine ⟨rfl, rfl, .inl ⟨rfl, rfl⟩, .inr ⟨_, rfl, .inl (.inl ⟨by decide, ['s'], 0, rfl, [], [], ['s'], rfl,
      by unfold HostName; decide, ⟨.inl rfl, by decide, .inl ⟨rfl, rfl⟩⟩, rfl⟩)⟩,
      .inr ⟨_, _, rfl, rfl, ['/'], [], ['o'], rfl, by unfold HostName; decide,
        ⟨.inr rfl, by decide, .inr ⟨by decide, by decide⟩⟩, rfl⟩⟩

/-- The hypotheses of `C132_slashes` are met by the file `/s/b` and one slash, and by something that does not exist. -/
example : (∀ p, (⟨[], fun _ => .none⟩ : Host).stat pairHost ['s', '/', 'b'] ≠ some (p, .dir)) ∧
    (∀ p, (⟨[], fun _ => .none⟩ : Host).stat pairHost ['s', '/', 'q'] ≠ some (p, .dir)) ∧
    (⟨[], fun _ => .none⟩ : Host).stat pairHost ['s', '/', 'b', '/'] = none ∧
    pathParent ['s', '/', 'b', '/'] = some ['s'] := by
  have h1 : (⟨[], fun _ => .none⟩ : Host).stat pairHost ['s', '/', 'b'] = some ([['s'], ['b']], .file [2]) := by decide
  have h2 : (⟨[], fun _ => .none⟩ : Host).stat pairHost ['s', '/', 'q'] = none := by decide
  exact ⟨fun p => by rw [h1]; nofun, fun p => by rw [h2]; nofun, by decide, by decide⟩

/-- And by a specification that says where the image goes, for the source `.`. -/
example : ∃ h a b, NamesArgs (fun _ => some ⟨some ['o'], some [(['a'], some ['x'])]⟩) h pairHost a b ∧
    a.source = some ['.'] ∧ b.source = [['s']] ∧ b.dryRun = false ∧ b.image = none := by
  have hst : (⟨[['s']], fun _ => .none⟩ : Host).stat pairHost ['.'] = some ([['s']], .dir) := by decide
  refine ⟨⟨[['s']], fun _ => .none⟩, ⟨some ['b'], none, none, false, some ['.'], none⟩,
    ⟨some [['s'], ['b']], none, none, false, [['s']], none⟩, ⟨rfl, rfl, .inr ⟨_, _, rfl, rfl, [], [['s']], ['b'], rfl,
      by unfold HostName; decide, ⟨.inl rfl, by decide, .inl ⟨rfl, rfl⟩⟩, rfl⟩, .inr ⟨_, rfl, .inl (.inr ⟨.inr (.inr ⟨rfl, ?_⟩),
      hst⟩)⟩, .inl ⟨rfl, rfl⟩⟩, rfl, rfl, rfl, rfl⟩
  intro p x spec _ _ h
  cases h
  nofun

end Xdvdfs.Props
