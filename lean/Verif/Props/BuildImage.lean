import Verif.Props.StdFs
import Verif.Props.Remap
import Verif.Proof.BuildImage

/-!
# Properties of `build-image` and `image-spec` (C80, C81, C82, C83, C84)
-/

namespace Xdvdfs.Props

open Xdvdfs Spec

/-! ## C80: specifications -/

theorem buildPlan_spec {parse : Bytes → Option ImageSpec} {fs : HostFs} {a : BuildArgs} {p : HostPath} {b : Bytes}
    {spec : ImageSpec} (hp : SpecFile fs a p) (hf : fs p = some (.file b)) (hb : parse b = some spec)
    (hr : a.rules = none) (hs : fs a.source = some .dir ∨ a.source ≠ []) :
    buildPlan parse fs a = (do
      let rules ← buildRuleList a (some spec)
      let source := if fs a.source = some .dir then a.source else a.source.dropLast
      pure ⟨rules, source, buildOutput fs a (some spec) source⟩) := by
  have h1 : buildPaths fs a = .ok (p, if fs a.source = some .dir then a.source else a.source.dropLast) := by
    unfold buildPaths
    by_cases hd : fs a.source = some .dir
    · rw [if_pos hd, if_pos hd]
      rcases hp with h | ⟨h1, h2, h3⟩ | ⟨h1, h2, h3⟩
      · rw [h]; rfl
      · rw [h1, h3]; rfl
      · exact absurd hd h2
    · rw [if_neg hd, if_neg (hs.resolve_left hd), if_neg hd]
      rcases hp with h | ⟨h1, h2, h3⟩ | ⟨h1, h2, h3⟩
      · rw [h]; rfl
      · exact absurd h2 hd
      · rw [h1, h3]; rfl
  have h2 : buildSpec parse fs a p = .ok (some spec) := by
    unfold buildSpec
    rw [if_pos ⟨by rw [hf]; rfl, hr⟩, hf]
    simp only [hb]
  unfold buildPlan
  rw [h1, Res.ok_bind]
  simp only [h2, Res.ok_bind]

theorem buildPlan_options {parse : Bytes → Option ImageSpec} {fs : HostFs} {a : BuildArgs} {rs : List Str}
    (hr : a.rules = some rs) (hs : fs a.source = some .dir ∨ a.source ≠ []) :
    buildPlan parse fs a = (do
      let rules ← buildRuleList a none
      let source := if fs a.source = some .dir then a.source else a.source.dropLast
      pure ⟨rules, source, buildOutput fs a none source⟩) := by
  have h1 : ∃ p, buildPaths fs a = .ok (p, if fs a.source = some .dir then a.source else a.source.dropLast) := by
    unfold buildPaths
    by_cases hd : fs a.source = some .dir
    · rw [if_pos hd, if_pos hd]; exact ⟨_, rfl⟩
    · rw [if_neg hd, if_neg (hs.resolve_left hd), if_neg hd]; exact ⟨_, rfl⟩
  obtain ⟨p, h1⟩ := h1
  have h2 : buildSpec parse fs a p = .ok none := by
    unfold buildSpec
    rw [if_neg (by rw [hr]; simp)]
  unfold buildPlan
  rw [h1, Res.ok_bind]
  simp only [h2, Res.ok_bind]

theorem buildPlan_no_root {parse : Bytes → Option ImageSpec} {fs : HostFs} {a : BuildArgs}
    (hs : ¬ (fs a.source = some .dir ∨ a.source ≠ [])) : buildPlan parse fs a = .err .other := by
  rw [not_or, Classical.not_not] at hs
  unfold buildPlan buildPaths
  rw [if_neg hs.1, if_pos hs.2]; rfl

/-- C80 (partial: different patterns, and no `-O`).  Missing: rules that repeat a pattern, and `-O`, for both of which the
property is false, see `C80_repeated_pattern_false` and `C80_output_ignored_false`.  Let `spec` be what `image-spec from`
makes of some `-m` options, stored in the file from which `build-image` takes its specification.  Then `build-image`
does exactly the same with the specification as with the options; and if `image-spec from` refuses the options, so does
`build-image`. -/
theorem C80_spec_equivalent_partial (t : Tool) (G : GlobEngine) (parse : Bytes → Option ImageSpec) (r : DirReader)
    (self : Bytes) (faults : Faults) (fs : HostFs) (a : BuildArgs) (hr : a.rules = none) (rs : List Str)
    (hd : (rs.map hostPart).Nodup) :
    (∀ spec p b, imageSpecFrom (some rs) none = .ok spec → SpecFile fs a p → fs p = some (.file b) →
      parse b = some spec →
      cmdBuildImage t G parse r self faults fs a =
        cmdBuildImage t G parse r self faults fs { a with spec := none, rules := some rs }) ∧
    ((∀ spec, imageSpecFrom (some rs) none ≠ .ok spec) →
      Failed (cmdBuildImage t G parse r self faults fs { a with spec := none, rules := some rs })) := by
  constructor
  · intro spec p b h1 h2 h3 h4
    obtain ⟨table, h5, h6⟩ := Res.bind_eq_ok.1 h1
    cases h6
    obtain ⟨ps, h7⟩ := specTable_parse h5
    rw [specTable_ok h7 hd (by simp)] at h5
    cases h5
    have key : buildPlan parse fs a = buildPlan parse fs { a with spec := none, rules := some rs } := by
      by_cases hs : fs a.source = some .dir ∨ a.source ≠ []
      · rw [buildPlan_spec h2 h3 h4 hr hs,
          buildPlan_options (a := { a with spec := none, rules := some rs }) rfl hs]
        have e1 : buildRuleList a (some ⟨none, some ([] ++ ps.map (fun p => (p.1, some p.2)))⟩) =
            buildRuleList { a with spec := none, rules := some rs } none := by
          unfold buildRuleList
          simp only [hr, Option.getD_none, Option.getD_some, Option.bind_some, Option.bind_none, List.nil_append, h7,
            specRules_strings, parseMapRules, specRules, Res.ok_bind, List.append_nil]
        rw [e1]
        rfl
      · rw [buildPlan_no_root hs, buildPlan_no_root (a := { a with spec := none, rules := some rs }) hs]
    unfold cmdBuildImage
    rw [key]
  · intro h x hx
    have hp : ∀ ps, parseMapRules rs ≠ .ok ps := by
      intro ps hps
      obtain ⟨t', ht⟩ := parse_specTable hps []
      exact h ⟨none, some t'⟩ (by show (specTable rs [] >>= _) = _; rw [ht]; rfl)
    unfold cmdBuildImage at hx
    by_cases hs : fs a.source = some .dir ∨ a.source ≠ []
    · rw [buildPlan_options (a := { a with spec := none, rules := some rs }) rfl hs] at hx
      split at hx
      · next plan hplan =>
        obtain ⟨rules, h1, _⟩ := Res.bind_eq_ok.1 hplan
        obtain ⟨ps, h2, _⟩ := Res.bind_eq_ok.1 h1
        exact hp ps h2
      all_goals cases hx
    · rw [buildPlan_no_root (a := { a with spec := none, rules := some rs }) hs] at hx
      cases hx

/-! ## C81: what is changed -/

theorem runBuild_seen {t : Tool} {G : GlobEngine} {r : DirReader} {self : Bytes} {faults : Faults} {fs : HostFs}
    {dry : Bool} {plan : BuildPlan} {st : HostFs} (h : Seen (runBuild t G r self faults fs dry plan) st) :
    (dry = true ∧ st = fs) ∨ (dry = false ∧
      ∃ out, plan.image = .ok out ∧ fs out ≠ some .dir ∧ ∀ q, q ≠ out → st q = fs q) := by
  unfold runBuild at h
  split at h
  · cases dry with
    | true =>
      left
      refine ⟨rfl, ?_⟩
      simp only [if_true] at h
      split at h
      · rcases h with h | ⟨l, h⟩
        · cases h
        · simp only [Res.ok.injEq, BuildResult.mk.injEq] at h
          exact h.1.symm
      all_goals (rcases h with h | ⟨l, h⟩ <;> cases h)
    | false =>
      right
      simp only [Bool.false_eq_true, if_false] at h
      split at h
      · next out fs1 ho =>
        obtain ⟨p, hp, ho⟩ := Res.bind_eq_ok.1 ho
        split at ho
        · cases ho
        · next hno =>
          simp only [not_or] at hno
          cases ho
          refine ⟨rfl, out, hp, hno.1, fun q hq => ?_⟩
          split at h <;> rcases h with h | ⟨l, h⟩
          all_goals first
            | (simp only [List.mem_cons, List.not_mem_nil, or_false] at h
               rcases h with rfl | rfl | rfl <;> simp [HostFs.set, hq])
            | (simp only [Res.ok.injEq, BuildResult.mk.injEq] at h
               rw [← h.1]; simp [HostFs.set, hq])
            | cases h
      all_goals (rcases h with h | ⟨l, h⟩ <;> cases h)
  all_goals (rcases h with h | ⟨l, h⟩ <;> cases h)

theorem cmdBuild_seen {t : Tool} {G : GlobEngine} {parse : Bytes → Option ImageSpec} {r : DirReader} {self : Bytes}
    {faults : Faults} {fs : HostFs} {a : BuildArgs} {st : HostFs}
    (h : Seen (cmdBuildImage t G parse r self faults fs a) st) :
    ∃ plan, buildPlan parse fs a = .ok plan ∧ Seen (runBuild t G r self faults fs a.dryRun plan) st := by
  unfold cmdBuildImage at h
  split at h
  · next plan hp => exact ⟨plan, hp, h⟩
  all_goals (rcases h with h | ⟨l, h⟩ <;> cases h)

/-- C81 (partial: at most one file changes).  Missing: that this file is not one of the source, which is false, see
`C81_source_overwritten_false`.  At every moment of a run of `build-image`, and after it, the host is as it was before
except for one file, which is the output path if one was given; a dry run changes nothing.  If neither an output path is
given nor the specification names one, nothing in the directory that is mapped changes. -/
theorem C81_source_kept_partial {t : Tool} {G : GlobEngine} {parse : Bytes → Option ImageSpec} {r : DirReader}
    {self : Bytes} {faults : Faults} {fs : HostFs} (hw : WellFormedHost fs) {a : BuildArgs} {st : HostFs}
    (h : Seen (cmdBuildImage t G parse r self faults fs a) st) :
    (a.dryRun = true → st = fs) ∧
    (∃ out, (∀ p, a.image = some p → out = p) ∧ ∀ q, q ≠ out → st q = fs q) ∧
    (a.image = none → NoSpecOutput parse fs a → ∀ d q, MappedDir fs a d → d <+: q → st q = fs q) := by
  obtain ⟨plan, hp, hs⟩ := cmdBuild_seen h
  obtain ⟨p1, p2, p3⟩ := buildPlan_ok hp
  rcases runBuild_seen hs with ⟨h1, rfl⟩ | ⟨h1, out, h0, h2, h3⟩
  · exact ⟨fun _ => rfl, ⟨a.image.getD [], fun p hp => by rw [hp]; rfl, fun _ _ => rfl⟩, fun _ _ _ _ _ _ => rfl⟩
  · refine ⟨fun h => (by rw [h1] at h; cases h),
      ⟨out, fun p hp => by rw [p2 p hp] at h0; exact (Res.ok.inj h0).symm, h3⟩, fun hi hno d q hd hq => h3 q ?_⟩
    have hdd : d = plan.source := by
      rcases hd with ⟨a1, a2⟩ | ⟨a1, n, a2⟩ <;> rcases p1 with ⟨b1, b2⟩ | ⟨b1, m, b2⟩
      · rw [a2, b2]
      · exact absurd a1 b1
      · exact absurd b1 a1
      · exact (List.append_inj' (a2.symm.trans b2) rfl).1
    rw [p3 hi hno] at h0
    cases h0
    by_cases h0 : plan.source = []
    · exfalso
      rw [h0] at h2
      exact h2 hw.1
    · rw [hdd] at hq
      exact default_outside (by simp) h0 hq

/-! ## C82: the dry run -/

/-- The last flush of the output buffer, when the file is closed, did not fail. -/
def BuildClosesCleanly (t : Tool) (G : GlobEngine) (parse : Bytes → Option ImageSpec) (r : DirReader) (self : Bytes)
    (faults : Faults) (fs : HostFs) (a : BuildArgs) : Prop :=
  ∀ plan trie out, buildPlan parse fs a = .ok plan →
    remapNew G plan.rules (stdReadDir r fs plan.source) t.fuel = .ok trie → plan.image = .ok out →
    (packFile (remapFs (buildSource r fs plan.source out self) trie t.fuel) (cliPolicy t.early) faults t.fuel).2.buf = []

theorem runBuild_dry_ok {t : Tool} {G : GlobEngine} {r : DirReader} {self : Bytes} {faults : Faults} {fs : HostFs}
    {plan : BuildPlan} {b : BuildResult} (h : (runBuild t G r self faults fs true plan).2 = .ok b) :
    ∃ trie, remapNew G plan.rules (stdReadDir r fs plan.source) t.fuel = .ok trie ∧
      remapDump trie t.fuel = .ok b.lines := by
  unfold runBuild at h
  split at h
  · next trie ht =>
    refine ⟨trie, ht, ?_⟩
    simp only [if_true] at h
    split at h
    · next lines hl => cases h; exact hl
    all_goals cases h
  all_goals cases h

theorem runBuild_ok {t : Tool} {G : GlobEngine} {r : DirReader} {self : Bytes} {faults : Faults} {fs : HostFs}
    {plan : BuildPlan} {b : BuildResult} (h : (runBuild t G r self faults fs false plan).2 = .ok b) :
    ∃ trie f out, remapNew G plan.rules (stdReadDir r fs plan.source) t.fuel = .ok trie ∧ plan.image = .ok out ∧
      packFile (remapFs (buildSource r fs plan.source out self) trie t.fuel) (cliPolicy t.early) faults t.fuel =
        (.ok (), f) ∧ b.fs out = some (.file f.img) ∧ ∀ q, q ≠ out → b.fs q = fs q := by
  unfold runBuild at h
  split at h
  · next trie ht =>
    simp only [Bool.false_eq_true, if_false] at h
    split at h
    · next out fs1 ho =>
      obtain ⟨hi, ho⟩ : plan.image = .ok out ∧ fs1 = fs.set out (.file []) := by
        obtain ⟨p, hp, ho⟩ := Res.bind_eq_ok.1 ho
        split at ho
        · cases ho
        · cases ho; exact ⟨hp, rfl⟩
      subst ho
      rcases hc : packFile (remapFs (buildSource r fs plan.source out self) trie t.fuel) (cliPolicy t.early) faults
        t.fuel with ⟨res, f⟩
      rw [hc] at h
      refine ⟨trie, f, out, ht, hi, ?_⟩
      cases res with
      | ok u => cases u; cases h; exact ⟨hc, by simp [HostFs.set], fun q hq => by simp [HostFs.set, hq]⟩
      | err e => cases h
      | panic => cases h
      | hang => cases h
    all_goals cases h
  all_goals cases h

theorem cmdBuild_ok {t : Tool} {G : GlobEngine} {parse : Bytes → Option ImageSpec} {r : DirReader} {self : Bytes}
    {faults : Faults} {fs : HostFs} {a : BuildArgs} {b : BuildResult}
    (h : (cmdBuildImage t G parse r self faults fs a).2 = .ok b) :
    ∃ plan, buildPlan parse fs a = .ok plan ∧ (runBuild t G r self faults fs a.dryRun plan).2 = .ok b := by
  unfold cmdBuildImage at h
  split at h
  · next plan hp => exact ⟨plan, hp, h⟩
  all_goals cases h

theorem buildPlan_dry (parse : Bytes → Option ImageSpec) (fs : HostFs) (a : BuildArgs) (dry : Bool) :
    buildPlan parse fs { a with dryRun := dry } = buildPlan parse fs a := rfl

/-- C82: what the dry run prints is what the real run does.  If both succeed, the output was flushed when it was closed,
and the output is not one of the files the dry run printed, then the output, which is the only file that changed, is an image, and it holds a file with some
bytes at some path exactly if the dry run printed a line from a host file with these bytes to this path; and where the
dry run printed a line from a directory of the host, it holds a directory. -/
theorem C82_dry_run_agrees {t : Tool} {G : GlobEngine} {parse : Bytes → Option ImageSpec} {r : DirReader}
    {self self' : Bytes} {faults faults' : Faults} {fs : HostFs} {a : BuildArgs} {dry real : BuildResult}
    (hr : ReadsHost r fs)
    (hdry : (cmdBuildImage t G parse r self' faults' fs { a with dryRun := true }).2 = .ok dry)
    (hreal : (cmdBuildImage t G parse r self faults fs { a with dryRun := false }).2 = .ok real)
    (hclose : BuildClosesCleanly t G parse r self faults fs a) :
    ∃ src out img, MappedDir fs a src ∧ (∀ p, a.image = some p → out = p) ∧ IsFile real.fs out img ∧
      (∀ q, q ≠ out → real.fs q = fs q) ∧
      ((∀ h q, (h, q) ∈ dry.lines → src ++ h ≠ out) → ∃ tree content, HoldsTree (fileDev img) tree content ∧
        (∀ q data, TreeFile tree content q data ↔ ∃ h, (h, q) ∈ dry.lines ∧ IsFile fs (src ++ h) data) ∧
        ∀ h q, (h, q) ∈ dry.lines → fs (src ++ h) = some .dir → DirOf tree q) := by
  obtain ⟨plan, hp, hd⟩ := cmdBuild_ok hdry
  obtain ⟨plan', hp', hn⟩ := cmdBuild_ok hreal
  rw [buildPlan_dry] at hp hp'
  rw [hp] at hp'
  cases hp'
  obtain ⟨trie, ht, hlines⟩ := runBuild_dry_ok hd
  obtain ⟨trie', f, out, ht', hi, hpack, himg, hrest⟩ := runBuild_ok hn
  rw [ht] at ht'
  cases ht'
  obtain ⟨p1, p2, _⟩ := buildPlan_ok hp
  have hbuf := hclose plan trie out hp ht hi
  rw [hpack] at hbuf
  refine ⟨plan.source, out, f.img, p1, fun p hp => by rw [p2 p hp] at hi; exact (Res.ok.inj hi).symm, himg, hrest,
    fun hout => ?_⟩
  obtain ⟨hist, h1, h2, h3, _⟩ := remapNew_spec ht
  -- what a line says
  have hrec : ∀ h q, (h, q) ∈ dry.lines → ∃ e d, EntryIn (stdReadDir r fs plan.source) d e ∧ h = d ++ [e.name] ∧
      Trie.look q trie = some ⟨h, e, false⟩ := by
    intro h q hm
    obtain ⟨hq, m, e1, e2, e3⟩ := dump_sound h1 hlines hm
    have e1' := e1
    rw [h2 q hq] at e1'
    unfold histLook at e1'
    obtain ⟨⟨path, e, q'⟩, f1, f2⟩ := Option.map_eq_some_iff.1 e1'
    have hx := (h3 path e q').1 (List.mem_of_find?_eq_some f1)
    have hqq : q = q' := by
      rw [← f2] at e2
      unfold chainVal at e2
      split at e2
      · assumption
      · cases e2
    subst hqq
    simp only [chainVal, if_true] at f2
    subst f2
    simp only at e3
    subst e3
    obtain ⟨d, g1, g2, _⟩ := hx
    exact ⟨e, d, g1, g2, e1⟩
  let content : Path → Bytes := fun q => match dry.lines.find? (fun x => x.2 = q) with
    | some x => stdContent fs plan.source x.1
    | none => []
  have hcontent : ∀ h q, (h, q) ∈ dry.lines → content q = stdContent fs plan.source h := by
    intro h q hm
    cases hf : dry.lines.find? (fun x => decide (x.2 = q)) with
    | none => exact absurd (List.find?_eq_none.1 hf _ hm) (by simp)
    | some x =>
      have hx := List.mem_of_find?_eq_some hf
      have hx2 : x.2 = q := by simpa using List.find?_some hf
      obtain ⟨_, _, _, _, g1⟩ := hrec x.1 x.2 hx
      obtain ⟨_, _, _, _, g2⟩ := hrec h q hm
      rw [hx2, g2] at g1
      simp only [Option.some.injEq, MapEntry.mk.injEq] at g1
      simp only [content, hf, g1.1]
  have hlist : ∀ d e, EntryIn (stdReadDir r fs plan.source) d e →
      (e.isDir = true ∧ fs (plan.source ++ (d ++ [e.name])) = some .dir) ∨
      (e.isDir = false ∧ ∃ data, fs (plan.source ++ (d ++ [e.name])) = some (.file data) ∧ e.len = data.length) :=
    fun d e he => std_entry_host (r := r) he
  have hfile : ∀ d e, EntryIn (remapReadDir trie t.fuel) d e → e.isDir = false → ∃ h data, (h, d ++ [e.name]) ∈ dry.lines ∧
      fs (plan.source ++ h) = some (.file data) ∧ e.len = data.length ∧
      ∀ off size, remapCopy trie (stdCopy r (fs.set out (.file self)) plan.source) (d ++ [e.name]) off size =
        stdCopy r (fs.set out (.file self)) plan.source h off size := by
    intro d e he hf
    obtain ⟨p, he', g1, g2, g3, _, g5, g6⟩ := C50_listing_copy_agree (host := buildSource r fs plan.source out self)
      ht he hf
    rcases hlist p he' g1 with ⟨k1, _⟩ | ⟨_, data, k2, k3⟩
    · rw [g2] at k1; cases k1
    · exact ⟨_, data, g6 _ _ hlines, k2, by rw [← g3, k3], g5⟩
  have hb : Bounded (remapFs (buildSource r fs plan.source out self) trie t.fuel) := by
    intro p n
    show (remapCopy trie (stdCopy r (fs.set out (.file self)) plan.source) p 0 n).1.flatten.length ≤ n
    unfold remapCopy
    split
    · exact std_bounded (fs := fs.set out (.file self)) (root := plan.source) hr.2.1 _ n
    all_goals simp
  have hfaith : FaithfulTo (remapFs (buildSource r fs plan.source out self) trie t.fuel) content := by
    intro d e n he hf _
    obtain ⟨h, data, k1, k2, k3, k4⟩ := hfile d e he hf
    have hc : content (d ++ [e.name]) = data := by
      rw [hcontent _ _ k1]; unfold stdContent; rw [k2]
    have hset : (fs.set out (.file self)) (plan.source ++ h) = some (.file data) := by
      unfold HostFs.set; rw [if_neg (hout _ _ k1)]; exact k2
    rw [hc, k3]
    refine ⟨?_, rfl⟩
    show (remapCopy trie (stdCopy r (fs.set out (.file self)) plan.source) (d ++ [e.name]) 0 data.length).1.flatten = data
    rw [k4]
    unfold stdCopy
    rw [hset]
    simp [hr.2.1]
  obtain ⟨⟨s', g1, g2⟩, _, hholds⟩ := C63_complete_partial hpack hbuf
  obtain ⟨_, _, _, hP⟩ := pack_packed hb hfaith g1
  refine ⟨remapReadDir trie t.fuel, content, hholds content hb hfaith, ?_, ?_⟩
  · intro q data
    constructor
    · rintro ⟨d, e, he, hf, rfl, hcq⟩
      obtain ⟨h, data', k1, k2, _⟩ := hfile d e he hf
      refine ⟨h, k1, ?_⟩
      have : content (d ++ [e.name]) = data' := by
        rw [hcontent _ _ k1]; unfold stdContent; rw [k2]
      show fs _ = _
      rw [k2, ← this, hcq]
    · rintro ⟨h, hm, hfl⟩
      have hfl : fs (plan.source ++ h) = some (.file data) := hfl
      obtain ⟨d, e, m, k1, k2, k3, _, _, k4, _⟩ := dump_listed h1 hP.listable hlines hm
      obtain ⟨e', d', l1, l2, l3⟩ := hrec h q hm
      rw [k3] at l3
      cases l3
      refine ⟨d, e, k2, ?_, k1, ?_⟩
      · rw [k4]
        rcases hlist d' e' l1 with ⟨_, o2⟩ | ⟨o1, _⟩
        · rw [← l2, hfl] at o2; cases o2
        · exact o1
      · rw [hcontent _ _ hm]; unfold stdContent; rw [hfl]
  · intro h q hm hdir
    obtain ⟨d, e, m, k1, k2, k3, _, _, k4, _⟩ := dump_listed h1 hP.listable hlines hm
    obtain ⟨e', d', l1, l2, l3⟩ := hrec h q hm
    rw [k3] at l3
    cases l3
    rw [k1]
    refine .sub k2.1 k2.2.choose_spec.1 k2.2.choose_spec.2 ?_
    rw [k4]
    rcases hlist d' e' l1 with ⟨o1, _⟩ | ⟨_, data, o2, _⟩
    · exact o1
    · rw [← l2, hdir] at o2; cases o2

/-! ## C83: a source that is not there -/

/-- C83 (partial: without `-m`).  Missing: runs with `-m`, for which the property is false, see
`C83_missing_source_false`.  A run without `-m` for which there is no specification that can be read, for instance because
the source path does not exist, fails and changes nothing. -/
theorem C83_missing_source_partial (t : Tool) (G : GlobEngine) (parse : Bytes → Option ImageSpec) (r : DirReader)
    (self : Bytes) (faults : Faults) (fs : HostFs) (a : BuildArgs) (hr : a.rules = none)
    (hno : ∀ p b spec, SpecFile fs a p → fs p = some (.file b) → parse b ≠ some spec) :
    Failed (cmdBuildImage t G parse r self faults fs a) ∧ ∀ st, ¬ Seen (cmdBuildImage t G parse r self faults fs a) st := by
  have key : ∀ plan, buildPlan parse fs a ≠ .ok plan := by
    intro plan h
    unfold buildPlan at h
    obtain ⟨⟨sp, src⟩, h1, h⟩ := Res.bind_eq_ok.1 h
    simp only at h
    obtain ⟨spec, h2, h⟩ := Res.bind_eq_ok.1 h
    obtain ⟨rules, h3, _⟩ := Res.bind_eq_ok.1 h
    have hsp : SpecFile fs a sp := by
      unfold buildPaths at h1
      split at h1
      · next hd =>
        cases h1
        cases hs : a.spec with
        | none => exact .inr (.inl ⟨hs, hd, rfl⟩)
        | some x => exact .inl hs
      · next hd =>
        split at h1
        · cases h1
        · cases h1
          cases hs : a.spec with
          | none => exact .inr (.inr ⟨hs, hd, rfl⟩)
          | some x => exact .inl hs
    have hn : spec = none := by
      unfold buildSpec at h2
      split at h2
      · split at h2
        · next b hb =>
          split at h2
          · next s hs => exact absurd hs (hno _ _ _ hsp hb)
          · cases h2
        · cases h2
      · cases h2; rfl
    subst hn
    unfold buildRuleList at h3
    rw [hr] at h3
    cases h3
  refine ⟨fun b h => ?_, fun st h => ?_⟩
  · obtain ⟨plan, h, _⟩ := cmdBuild_ok h
    exact key plan h
  · obtain ⟨plan, h, _⟩ := cmdBuild_seen h
    exact key plan h

/-! ## C84: rules as written -/

theorem buildPlan_rules {parse : Bytes → Option ImageSpec} {fs : HostFs} {a : BuildArgs} {rs : List Str}
    (hr : a.rules = some rs) {plan : BuildPlan} (h : buildPlan parse fs a = .ok plan) : parseMapRules rs = .ok plan.rules := by
  unfold buildPlan at h
  obtain ⟨⟨sp, src⟩, h1, h⟩ := Res.bind_eq_ok.1 h
  simp only at h
  obtain ⟨spec, h2, h⟩ := Res.bind_eq_ok.1 h
  obtain ⟨rules, h3, h⟩ := Res.bind_eq_ok.1 h
  cases h
  have hn : spec = none := by
    unfold buildSpec at h2
    rw [if_neg (by rw [hr]; simp)] at h2
    cases h2; rfl
  subst hn
  unfold buildRuleList at h3
  obtain ⟨ps, h5, h3⟩ := Res.bind_eq_ok.1 h3
  rw [hr] at h5
  simp only [Option.bind_none, Option.getD_none, specRules, Res.ok_bind, List.append_nil] at h3
  split at h3
  · cases h3
  · cases h3; exact h5

theorem mappedDir_unique {fs : HostFs} {a : BuildArgs} {d d' : HostPath} (h : MappedDir fs a d) (h' : MappedDir fs a d') :
    d = d' := by
  rcases h with ⟨a1, a2⟩ | ⟨a1, n, a2⟩ <;> rcases h' with ⟨b1, b2⟩ | ⟨b1, m, b2⟩
  · rw [a2, b2]
  · exact absurd a1 b1
  · exact absurd b1 a1
  · exact (List.append_inj' (a2.symm.trans b2) rfl).1

/-- C84 (partial: rules with at most one colon).  Missing: rules with more colons, which are not used as written, see
`C84_rules_false`.  A dry run with `-m` options prints only mappings of what is in the mapped directory, to the place
where the rules, read as `HOST:IMAGE`, map it; and if no file is mapped to the root or over something else, it prints one
for every file that the rules map.  Options without a colon that are not exclusions are refused. -/
theorem C84_rules_partial (t : Tool) (G : GlobEngine) (parse : Bytes → Option ImageSpec) (r : DirReader)
    (self : Bytes) (faults : Faults) (fs : HostFs) (a : BuildArgs) (rs : List Str) (hr : a.rules = some rs) :
    (∀ pairs, AllWritten pairs rs → (∀ p ∈ pairs, ':' ∉ p.1 ∧ ':' ∉ p.2) → a.dryRun = true → ∀ b,
      (cmdBuildImage t G parse r self faults fs a).2 = .ok b → ∀ src, MappedDir fs a src →
      (∀ h q, (h, q) ∈ b.lines → fs (src ++ h) ≠ none ∧ MapsTo G pairs h q) ∧
      (ReadsHost r fs → WellFormedHost fs → NoConflicts G pairs (stdFs r fs src).readDir → ∀ h data, h ≠ [] →
        IsFile fs (src ++ h) data → IsMapped G pairs h → ∃ q, MapsTo G pairs h q ∧ (h, q) ∈ b.lines)) ∧
    ∀ x ∈ rs, ':' ∉ x → x.head? ≠ some '!' → Failed (cmdBuildImage t G parse r self faults fs a) := by
  constructor
  · intro pairs hw hc hdry b hb src hsrc
    obtain ⟨plan, hp, hrun⟩ := cmdBuild_ok hb
    have hps := buildPlan_rules hr hp
    rw [parseMapRules_written hw hc] at hps
    have hrules : plan.rules = pairs := (Res.ok.inj hps).symm
    rw [hdry] at hrun
    obtain ⟨trie, ht, hl⟩ := runBuild_dry_ok hrun
    have hs := mappedDir_unique hsrc (buildPlan_ok hp).1
    rw [hrules, ← hs] at ht
    obtain ⟨g1, _, _⟩ := C49_remap_precedence ht
    constructor
    · intro h q hm
      obtain ⟨⟨d, e, he, rfl⟩, hmap⟩ := g1 _ _ _ _ hl hm
      refine ⟨?_, hmap⟩
      rcases std_entry_host (r := r) he with ⟨_, k⟩ | ⟨_, data, k, _⟩ <;> rw [k] <;> nofun
    · intro hrd hwf hnc h data hne hfile hmap
      have hfile : fs (src ++ h) = some (.file data) := hfile
      obtain ⟨p, e, he, rfl⟩ := std_host_entry hrd hwf (remapNew_listable ht) _ rfl hne (by rw [hfile]; nofun)
      have hf : e.isDir = false := by
        rcases std_entry_host he with ⟨_, k⟩ | ⟨k, _⟩
        · rw [hfile] at k; cases k
        · exact k
      obtain ⟨d, n, k1, k2, _⟩ := C69_mapped_files_partial (host := stdFs r fs src) ht hnc he hf hmap (Nat.le_refl _)
      obtain ⟨p', e', o1, o2, _, o4, _, o6⟩ := C50_listing_copy_agree (host := stdFs r fs src) ht k2 rfl
      refine ⟨_, k1, ?_⟩
      by_cases hx : (p', e') = (p, e)
      · cases hx; exact o6 _ _ hl
      · exact absurd (List.prefix_refl _) ((hnc p e _ he hf k1).2 p' e' _ o1 hx o4)
  · intro x hx h1 h2 b hb
    obtain ⟨plan, hp, _⟩ := cmdBuild_ok hb
    exact parseMapRules_bare hx h1 h2 _ (buildPlan_rules hr hp)

/-! ## Concrete runs -/

/-- A source with only files in its root packs. -/
theorem root_only_packs {fs : SourceFs} {files : List (Str × Bytes)} (hok : FlatOk files)
    (hroot : fs.readDir [] = (flatFs files).readDir [])
    (hcopy : ∀ p e, EntryIn fs.readDir p e → e.isDir = false → ∃ k, (fs.copy (p ++ [e.name]) 0 e.len).2 = .ok k)
    {fuel : Nat} (hf : 1 ≤ fuel) (pol : BufPolicy) :
    ∃ b, packFile fs pol (fun _ => none) fuel = (.ok (), b) ∧ b.buf = [] := by
  have hroot' : fs.readDir [] = .ok (files.map (fun x => ⟨x.1, false, x.2.length⟩)) := by rw [hroot]; rfl
  have hdirs : ∀ p, DirOf fs.readDir p ↔ p = [] := by
    intro p
    constructor
    · intro h
      induction h with
      | root => rfl
      | @sub q l e h1 h2 h3 h4 ih =>
        subst ih
        rw [hroot'] at h2
        cases h2
        obtain ⟨x, _, rfl⟩ := List.mem_map.1 h3
        cases h4
    · rintro rfl; exact .root
  have ht : TreeOf fs.readDir (flatTree files) := by
    refine ⟨by simp [flatTree], fun p l => ?_⟩
    rw [hdirs]
    simp only [flatTree, List.mem_singleton, Prod.mk.injEq]
    constructor
    · rintro ⟨rfl, rfl⟩; exact ⟨rfl, hroot'⟩
    · rintro ⟨rfl, h⟩; rw [hroot'] at h; cases h; exact ⟨rfl, rfl⟩
  have hL : Listable fs.readDir := by
    intro p hp
    rw [hdirs] at hp
    subst hp
    exact ⟨_, hroot'⟩
  have h1 := C33_representable_tree_packs_few (fileEnv fs (fun _ => none)) hL ht (flat_fits hok) (flat_storable hok)
    (flat_few hok) (fileEnv_works hcopy) (by simpa [flatTree] using hf) ⟨⟨[], []⟩, []⟩
  obtain ⟨h2, h3⟩ := C63_buffer_unnoticed fs pol fuel
  rw [h1] at h2
  exact ⟨_, Prod.ext h2 rfl, h3⟩

/-- `build-image` succeeds if its plan can be made, and the overlay has some files in its root and nothing else. -/
theorem build_succeeds {t : Tool} {G : GlobEngine} {parse : Bytes → Option ImageSpec} {r : DirReader} {self : Bytes}
    {fs : HostFs} {a : BuildArgs} {plan : BuildPlan} {trie : Trie MapEntry} {files : List (Str × Bytes)} {out : HostPath}
    (hplan : buildPlan parse fs a = .ok plan) (hdry : a.dryRun = false)
    (ht : remapNew G plan.rules (stdReadDir r fs plan.source) t.fuel = .ok trie)
    (hi : plan.image = .ok out) (hopen : fs out ≠ some .dir ∧ fs out.dropLast = some .dir)
    (hroot : remapReadDir trie t.fuel [] = (flatFs files).readDir []) (hok : FlatOk files) (hf : 1 ≤ t.fuel) :
    ∃ st f, (cmdBuildImage t G parse r self (fun _ => none) fs a).2 = .ok ⟨st, []⟩ ∧ st out = some (.file f) ∧
      (0 < f.length ∧ f.length % 65536 = 0) ∧ (∀ q, q ≠ out → st q = fs q) ∧
      BuildClosesCleanly t G parse r self (fun _ => none) fs a := by
  obtain ⟨b, hb, hbuf⟩ := root_only_packs (fs := remapFs (buildSource r fs plan.source out self) trie t.fuel) hok hroot
    (by
      intro p e he hd
      obtain ⟨p', he', g1, g2, g3, _, g5, _⟩ := C50_listing_copy_agree (host := buildSource r fs plan.source out self)
        ht he hd
      rw [g5]
      show ∃ k, (stdCopy r (fs.set out (.file self)) plan.source (p' ++ [he'.name]) 0 e.len).2 = .ok k
      rcases std_entry_host (r := r) g1 with ⟨k1, _⟩ | ⟨_, data, k2, _⟩
      · rw [g2] at k1; cases k1
      · unfold stdCopy HostFs.set
        by_cases hx : plan.source ++ (p' ++ [he'.name]) = out
        · rw [if_pos hx]; exact ⟨_, rfl⟩
        · rw [if_neg hx, k2]; exact ⟨_, rfl⟩) hf (cliPolicy t.early)
  refine ⟨(fs.set out (.file [])).set out (.file b.img), b.img, ?_, by simp [HostFs.set],
    (C63_complete_partial hb hbuf).2.1, fun q hq => by simp [HostFs.set, hq], ?_⟩
  · unfold cmdBuildImage
    rw [hplan]
    simp only
    unfold runBuild
    rw [ht, hdry]
    simp only [Bool.false_eq_true, if_false]
    have ho : buildOpen fs plan.image = .ok (out, fs.set out (.file [])) := by
      unfold buildOpen
      rw [hi, Res.ok_bind, if_neg]
      · rfl
      rintro (h | h)
      · exact hopen.1 h
      · exact h hopen.2
    rw [ho]
    simp only [hb]
  · intro plan' trie' out' h1 h2 h3
    rw [hplan] at h1
    cases h1
    rw [ht] at h2
    cases h2
    rw [hi] at h3
    cases h3
    rw [hb]; exact hbuf

/-- `build-image` as a dry run. -/
theorem build_dry {t : Tool} {G : GlobEngine} {parse : Bytes → Option ImageSpec} {r : DirReader} {self : Bytes}
    {faults : Faults} {fs : HostFs} {a : BuildArgs} {plan : BuildPlan} {lines : List (Path × Path)}
    (hplan : buildPlan parse fs a = .ok plan) (hdry : a.dryRun = true)
    (h : (do
      let trie ← remapNew G plan.rules (stdReadDir r fs plan.source) t.fuel
      remapDump trie t.fuel) = .ok lines) :
    (cmdBuildImage t G parse r self faults fs a).2 = .ok ⟨fs, lines⟩ := by
  obtain ⟨trie, h1, h2⟩ := Res.bind_eq_ok.1 h
  unfold cmdBuildImage
  rw [hplan]
  simp only
  unfold runBuild
  rw [h1, hdry]
  simp only [if_true, h2]

/-- The host with `/s/a` and `/s/b`, and a specification `/f`. -/
def specHost (b : Bytes) : HostFs := pairHost.set [['f']] (.file b)

def buildTool : Tool := ⟨fun _ _ => false, fun b => [b], 20, 20⟩

def abReader : DirReader := pairReader [['a'], ['b']]

theorem ab_readDir (b : Bytes) : stdReadDir abReader (specHost b) [['s']] = (flatFs (pairFiles false)).readDir := by
  unfold specHost
  rw [stdReadDir_set (by decide)]
  exact pair_readDir false

theorem pair_stdReadDir : stdReadDir abReader pairHost [['s']] = (flatFs (pairFiles false)).readDir := pair_readDir false

/-- Run with a specification, and with options. -/
def specArgs (dry : Bool) : BuildArgs := ⟨some [['f']], none, none, dry, [['s']], none⟩

def optionArgs (rules : List Str) (dry : Bool) : BuildArgs := ⟨none, some rules, none, dry, [['s']], none⟩

/-- `a:x`, `!a`, `a:y`. -/
def repeatedRules : List Str := [['a', ':', 'x'], ['!', 'a'], ['a', ':', 'y']]

set_option maxRecDepth 20000 in
/-- C80 is false for rules that repeat a pattern: with `-m a:x -m '!a' -m a:y`, `build-image` maps `a` to `y`, but with the
specification that `image-spec from` makes of these options it maps nothing, because the table of rules keeps the place of
the first `a:x` and the value of the last `a:y`, so that the exclusion comes last. -/
theorem C80_repeated_pattern_false (parse : Bytes → Option ImageSpec) (print : ImageSpec → Bytes)
    (hcodec : ∀ s, parse (print s) = some s) : ∃ spec fs, imageSpecFrom (some repeatedRules) none = .ok spec ∧
      SpecFile fs (specArgs true) [['f']] ∧ fs [['f']] = some (.file (print spec)) ∧ ReadsHost abReader pairHost ∧
      (cmdBuildImage buildTool literalGlobs parse abReader [] (fun _ => none) fs (specArgs true)).2 = .ok ⟨fs, []⟩ ∧
      (cmdBuildImage buildTool literalGlobs parse abReader [] (fun _ => none) fs (optionArgs repeatedRules true)).2 =
        .ok ⟨fs, [([['a']], [['y']])]⟩ := by
  let spec : ImageSpec := ⟨none, some [(['a'], some ['y']), (['!', 'a'], some [])]⟩
  have hs : imageSpecFrom (some repeatedRules) none = .ok spec := by decide
  have hdir : specHost (print spec) [['s']] = some .dir := by
    unfold specHost HostFs.set; rw [if_neg (by decide)]; decide
  have hfile : specHost (print spec) [['f']] = some (.file (print spec)) := by
    unfold specHost HostFs.set; rw [if_pos rfl]
  have p1 : ∃ out, buildPlan parse (specHost (print spec)) (specArgs true) =
      .ok ⟨[(['a'], ['y']), (['!', 'a'], [])], [['s']], out⟩ := by
    rw [buildPlan_spec (.inl rfl) hfile (hcodec spec) rfl (.inr (by decide))]
    simp only [show (specArgs true).source = [['s']] from rfl, hdir]
    exact ⟨_, rfl⟩
  have p2 : ∃ out, buildPlan parse (specHost (print spec)) (optionArgs repeatedRules true) =
      .ok ⟨[(['a'], ['x']), (['!', 'a'], []), (['a'], ['y'])], [['s']], out⟩ := by
    rw [buildPlan_options (rs := repeatedRules) rfl (.inr (by decide))]
    simp only [show (optionArgs repeatedRules true).source = [['s']] from rfl, hdir]
    exact ⟨_, rfl⟩
  obtain ⟨o1, p1⟩ := p1
  obtain ⟨o2, p2⟩ := p2
  refine ⟨spec, specHost (print spec), hs, .inl rfl, hfile, pair_reads (.inl rfl), build_dry p1 rfl ?_, build_dry p2 rfl ?_⟩
  · simp only [ab_readDir]; decide +kernel
  · simp only [ab_readDir]; decide +kernel

set_option maxRecDepth 20000 in
theorem ax_overlay : ∃ trie, remapNew literalGlobs [(['a'], ['x'])] (flatFs (pairFiles false)).readDir 20 = .ok trie ∧
    remapReadDir trie 20 [] = (flatFs [(['x'], [1])]).readDir [] := by
  have : (do
      let t ← remapNew literalGlobs [(['a'], ['x'])] (flatFs (pairFiles false)).readDir 20
      remapReadDir t 20 []) = .ok [⟨['x'], false, 1⟩] := by decide +kernel
  obtain ⟨t, h1, h2⟩ := Res.bind_eq_ok.1 this
  exact ⟨t, h1, h2⟩

theorem x_ok : FlatOk [(['x'], [1])] :=
  ascii_flatOk (by unfold DistinctNames; decide) (by decide) (by decide) (by decide)

/-- C80 is false for `-O`: with `-m a:x -O o`, `build-image` ignores `-O`: nothing is created at `o` in the source
directory; with the specification that `image-spec from` makes of the same options, the image is created there. -/
theorem C80_output_ignored_false (parse : Bytes → Option ImageSpec) (print : ImageSpec → Bytes)
    (hcodec : ∀ s, parse (print s) = some s) : ∃ spec fs st st' img,
      imageSpecFrom (some [['a', ':', 'x']]) (some ['o']) = .ok spec ∧
      SpecFile fs (specArgs false) [['f']] ∧ fs [['f']] = some (.file (print spec)) ∧
      (cmdBuildImage buildTool literalGlobs parse abReader [] (fun _ => none) fs (specArgs false)).2 = .ok ⟨st, []⟩ ∧
      (cmdBuildImage buildTool literalGlobs parse abReader [] (fun _ => none) fs
        { optionArgs [['a', ':', 'x']] false with metaOutput := some ['o'] }).2 = .ok ⟨st', []⟩ ∧
      IsFile st [['s'], ['o']] img ∧ st' [['s'], ['o']] = none := by
  let spec : ImageSpec := ⟨some ['o'], some [(['a'], some ['x'])]⟩
  have hs : imageSpecFrom (some [['a', ':', 'x']]) (some ['o']) = .ok spec := by decide
  have hget : ∀ q, q ≠ [['f']] → specHost (print spec) q = pairHost q := by
    intro q hq; unfold specHost HostFs.set; rw [if_neg hq]
  have hdir : specHost (print spec) [['s']] = some .dir := by rw [hget _ (by decide)]; decide
  have hfile : specHost (print spec) [['f']] = some (.file (print spec)) := by
    unfold specHost HostFs.set; rw [if_pos rfl]
  have p1 : buildPlan parse (specHost (print spec)) (specArgs false) =
      .ok ⟨[(['a'], ['x'])], [['s']], .ok [['s'], ['o']]⟩ := by
    rw [buildPlan_spec (.inl rfl) hfile (hcodec spec) rfl (.inr (by decide))]
    simp only [show (specArgs false).source = [['s']] from rfl, hdir]
    have ho : buildOutput (specHost (print spec)) (specArgs false) (some spec) [['s']] = .ok [['s'], ['o']] := by
      have : buildOutput (specHost (print spec)) (specArgs false) (some spec) [['s']] =
          hostWalk (specHost (print spec)) [['s']] (hostComps ['o']) := rfl
      rw [this, show hostComps ['o'] = [['o']] by decide]
      simp [hostWalk, hdir]
    simp only [if_true, ho]
    rfl
  have p2 : buildPlan parse (specHost (print spec)) { optionArgs [['a', ':', 'x']] false with metaOutput := some ['o'] } =
      .ok ⟨[(['a'], ['x'])], [['s']], .ok [['s', '.', 'x', 'i', 's', 'o', '.', 'i', 's', 'o']]⟩ := by
    rw [buildPlan_options (a := { optionArgs [['a', ':', 'x']] false with metaOutput := some ['o'] })
      (rs := [['a', ':', 'x']]) rfl (.inr (by decide))]
    simp only [show (optionArgs [['a', ':', 'x']] false).source = [['s']] from rfl, hdir]
    rfl
  obtain ⟨trie, t1, t2⟩ := ax_overlay
  obtain ⟨st, img, a1, a2, _, _, _⟩ := build_succeeds (t := buildTool) (G := literalGlobs) (r := abReader) (self := [])
    (trie := trie) p1 rfl (by simp only [ab_readDir]; exact t1)
    rfl ⟨by rw [hget _ (by decide)]; decide, by rw [hget _ (by decide)]; decide⟩ t2 x_ok (by decide)
  obtain ⟨st', _, b1, b2, _, b4, _⟩ := build_succeeds (t := buildTool) (G := literalGlobs) (r := abReader) (self := [])
    (trie := trie) p2 rfl (by simp only [ab_readDir]; exact t1)
    rfl ⟨by rw [hget _ (by decide)]; decide, by rw [hget _ (by decide)]; decide⟩ t2 x_ok (by decide)
  exact ⟨spec, _, st, st', img, hs, .inl rfl, hfile, a1, b1, a2, by rw [b4 _ (by simp), hget _ (by decide)]; decide⟩

/-- Options `-m a:x`, with the output `/s/b`. -/
def overwriteArgs : BuildArgs := { optionArgs [['a', ':', 'x']] false with image := some [['s'], ['b']] }

/-- C81 is false: an output path in the source is accepted, and the file of the source at that path is replaced by the
image. -/
theorem C81_source_overwritten_false (parse : Bytes → Option ImageSpec) : ∃ fs st src out data, ReadsHost abReader fs ∧
    WellFormedHost fs ∧ MappedDir fs overwriteArgs src ∧ src <+: out ∧ IsFile fs out data ∧
    (cmdBuildImage buildTool literalGlobs parse abReader [] (fun _ => none) fs overwriteArgs).2 = .ok ⟨st, []⟩ ∧
    ¬ IsFile st out data := by
  have p : buildPlan parse pairHost overwriteArgs = .ok ⟨[(['a'], ['x'])], [['s']], .ok [['s'], ['b']]⟩ := by
    rw [buildPlan_options (a := overwriteArgs) (rs := [['a', ':', 'x']]) rfl (.inr (by decide))]
    rfl
  obtain ⟨trie, t1, t2⟩ := ax_overlay
  obtain ⟨st, img, a1, a2, a3, _, _⟩ := build_succeeds (t := buildTool) (G := literalGlobs) (r := abReader) (self := [])
    (trie := trie) p rfl (by simp only [pair_stdReadDir]; exact t1) rfl ⟨by decide, by decide⟩ t2 x_ok (by decide)
  refine ⟨pairHost, st, [['s']], [['s'], ['b']], [2], pair_reads (.inl rfl), pair_wellFormed, .inl ⟨by decide, rfl⟩,
    ⟨[['b']], rfl⟩, by unfold IsFile; decide, a1, ?_⟩
  intro h
  have h : st [['s'], ['b']] = some (.file [2]) := h
  rw [a2] at h
  cases h
  have := a3.2
  simp at this

set_option maxRecDepth 20000 in
/-- C83 is false with `-m`: for the source path `/s/z`, which does not exist, the files of `/s` are mapped. -/
theorem C83_missing_source_false (parse : Bytes → Option ImageSpec) : ∃ fs, ReadsHost abReader fs ∧
    fs [['s'], ['z']] = none ∧
    (cmdBuildImage buildTool literalGlobs parse abReader [] (fun _ => none) fs
      { optionArgs [['a', ':', 'x']] true with source := [['s'], ['z']] }).2 = .ok ⟨fs, [([['a']], [['x']])]⟩ := by
  have p : ∃ out, buildPlan parse pairHost { optionArgs [['a', ':', 'x']] true with source := [['s'], ['z']] } =
      .ok ⟨[(['a'], ['x'])], [['s']], out⟩ := by
    rw [buildPlan_options (a := { optionArgs [['a', ':', 'x']] true with source := [['s'], ['z']] })
      (rs := [['a', ':', 'x']]) rfl (.inr (by decide))]
    exact ⟨_, rfl⟩
  obtain ⟨out, p⟩ := p
  refine ⟨pairHost, pair_reads (.inl rfl), by decide, build_dry p rfl ?_⟩
  simp only [pair_stdReadDir]; decide +kernel

set_option maxRecDepth 20000 in
/-- C84 is false for rules with more colons: `-m a:x:y` maps `a` to `x`; the rest is dropped. -/
theorem C84_rules_false (parse : Bytes → Option ImageSpec) : ∃ fs pairs, ReadsHost abReader fs ∧
    AllWritten pairs [['a', ':', 'x', ':', 'y']] ∧
    (cmdBuildImage buildTool literalGlobs parse abReader [] (fun _ => none) fs
      (optionArgs [['a', ':', 'x', ':', 'y']] true)).2 = .ok ⟨fs, [([['a']], [['x']])]⟩ ∧
    MapsTo literalGlobs pairs [['a']] [['x', ':', 'y']] := by
  have p : ∃ out, buildPlan parse pairHost (optionArgs [['a', ':', 'x', ':', 'y']] true) =
      .ok ⟨[(['a'], ['x'])], [['s']], out⟩ := by
    rw [buildPlan_options (a := optionArgs [['a', ':', 'x', ':', 'y']] true) (rs := [['a', ':', 'x', ':', 'y']]) rfl
      (.inr (by decide))]
    exact ⟨_, rfl⟩
  obtain ⟨out, p⟩ := p
  refine ⟨pairHost, [(['a'], ['x', ':', 'y'])], pair_reads (.inl rfl), ⟨.inl rfl, trivial⟩, build_dry p rfl ?_, ?_⟩
  · simp only [pair_stdReadDir]; decide +kernel
  · refine ⟨[['a']], [], (['a'], ['x', ':', 'y']), _, rfl, ?_, ?_, literal_matches.2 ⟨by decide, rfl⟩, by decide⟩
    · refine ⟨⟨[], rfl⟩, by simp, ⟨_, List.mem_singleton.2 rfl, literal_hits.2 (by decide)⟩, ?_⟩
      intro m' hm' hl
      have := hm'.length_le
      simp at this hl
      omega
    · exact ⟨[], [], [], rfl, .inl rfl, by simp, by decide, literal_hits.2 (by decide), by simp⟩

/-- The hypotheses of C80 hold for `-m a:x`, and those of C82 and C84 as well: the dry run prints that `a` becomes `x`, and
the image that is built has a file `x` with the contents of `a`. -/
example (parse : Bytes → Option ImageSpec) : ∃ st img tree content,
    (cmdBuildImage buildTool literalGlobs parse abReader [] (fun _ => none) pairHost
      (optionArgs [['a', ':', 'x']] true)).2 = .ok ⟨pairHost, [([['a']], [['x']])]⟩ ∧
    (cmdBuildImage buildTool literalGlobs parse abReader [] (fun _ => none) pairHost
      (optionArgs [['a', ':', 'x']] false)).2 = .ok ⟨st, []⟩ ∧
    IsFile st [['s', '.', 'x', 'i', 's', 'o', '.', 'i', 's', 'o']] img ∧ HoldsTree (fileDev img) tree content ∧
    TreeFile tree content [['x']] [1] := by
  have p : ∀ dry, buildPlan parse pairHost (optionArgs [['a', ':', 'x']] dry) =
      .ok ⟨[(['a'], ['x'])], [['s']], .ok [['s', '.', 'x', 'i', 's', 'o', '.', 'i', 's', 'o']]⟩ := by
    intro dry
    rw [buildPlan_options (a := optionArgs [['a', ':', 'x']] dry) (rs := [['a', ':', 'x']]) rfl (.inr (by simp [optionArgs]))]
    rfl
  have hdry : (cmdBuildImage buildTool literalGlobs parse abReader [] (fun _ => none) pairHost
      (optionArgs [['a', ':', 'x']] true)).2 = .ok ⟨pairHost, [([['a']], [['x']])]⟩ := by
    refine build_dry (p true) rfl ?_
    simp only [pair_stdReadDir]
    set_option maxRecDepth 20000 in decide +kernel
  obtain ⟨trie, t1, t2⟩ := ax_overlay
  obtain ⟨st, img, a1, a2, _, a4, a5⟩ := build_succeeds (t := buildTool) (G := literalGlobs) (r := abReader) (self := [])
    (trie := trie) (p false) rfl (by simp only [pair_stdReadDir]; exact t1) rfl ⟨by decide, by decide⟩ t2 x_ok (by decide)
  obtain ⟨src, out, img', m1, _, m3, m5, m4⟩ := C82_dry_run_agrees (a := optionArgs [['a', ':', 'x']] false)
    (pair_reads (.inl rfl)) hdry a1 a5
  have hsrc : src = [['s']] := mappedDir_unique m1 (.inl ⟨by decide, rfl⟩)
  subst hsrc
  have m3 : st out = some (.file img') := m3
  have hout : out = [['s', '.', 'x', 'i', 's', 'o', '.', 'i', 's', 'o']] := by
    by_cases ho : out = [['s', '.', 'x', 'i', 's', 'o', '.', 'i', 's', 'o']]
    · exact ho
    · exfalso
      rw [show st [['s', '.', 'x', 'i', 's', 'o', '.', 'i', 's', 'o']] = pairHost _ from m5 _ (Ne.symm ho)] at a2
      rw [show pairHost [['s', '.', 'x', 'i', 's', 'o', '.', 'i', 's', 'o']] = none by decide] at a2
      cases a2
  subst hout
  have := m4 (by
    intro h q hm
    simp only [List.mem_singleton, Prod.mk.injEq] at hm
    rw [hm.1]; decide)
  obtain ⟨tree, content, n1, n2, _⟩ := this
  refine ⟨st, img', tree, content, hdry, a1, m3, n1, (n2 _ _).2 ⟨[['a']], by simp, ?_⟩⟩
  show pairHost _ = _
  decide

/-- The hypotheses of the first part of C80 hold for `-m a:x -m '!b'` and a specification in `/f`. -/
example (parse : Bytes → Option ImageSpec) (print : ImageSpec → Bytes) (hcodec : ∀ s, parse (print s) = some s) :
    ∃ rs spec b, (rs.map hostPart).Nodup ∧ imageSpecFrom (some rs) none = .ok spec ∧ parse b = some spec ∧
      SpecFile (specHost b) (specArgs false) [['f']] ∧ specHost b [['f']] = some (.file b) ∧ (specArgs false).rules = none :=
  ⟨[['a', ':', 'x'], ['!', 'b']], ⟨none, some [(['a'], some ['x']), (['!', 'b'], some [])]⟩, _, by decide, by decide,
    hcodec _, .inl rfl, by unfold specHost HostFs.set; rw [if_pos rfl], rfl⟩

/-- And those of the second for `-m a:x -m b`. -/
example : (([['a', ':', 'x'], ['b']] : List Str).map hostPart).Nodup ∧
    ∀ spec, imageSpecFrom (some [['a', ':', 'x'], ['b']]) none ≠ .ok spec := by
  have : imageSpecFrom (some [['a', ':', 'x'], ['b']]) none = .err .other := by decide
  exact ⟨by decide, fun _ h => by rw [this] at h; cases h⟩

/-- Those of C83 hold for the source `/s/z`, which does not exist. -/
example (parse : Bytes → Option ImageSpec) : ∀ p b spec,
    SpecFile pairHost ⟨none, none, none, false, [['s'], ['z']], none⟩ p → pairHost p = some (.file b) →
      parse b ≠ some spec := by
  rintro p b spec (h | ⟨_, h, _⟩ | ⟨_, _, rfl⟩) hb
  · cases h
  · exact absurd h (by decide)
  · rw [show pairHost [['s'], ['z']] = none by decide] at hb; cases hb

end Xdvdfs.Props
