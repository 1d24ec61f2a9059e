import Verif.Spec.SpecCmd
import Verif.Props.BuildArgs

/-!
# C149: `image-spec from`, and building from what it has written
-/

namespace Xdvdfs.Props
open Xdvdfs Spec

/-! ## The table -/

theorem mem_onceEach {k : Str} : ∀ {ks : List Str}, k ∈ onceEach ks ↔ k ∈ ks := by
  intro ks
  induction ks with
  | nil => simp [onceEach]
  | cons x xs ih =>
    simp only [onceEach, List.mem_cons, List.mem_filter, ih, decide_eq_true_eq]
    constructor
    · rintro (h | ⟨h, _⟩)
      · exact .inl h
      · exact .inr h
    · rintro (h | h)
      · exact .inl h
      · by_cases hx : k = x
        · exact .inl hx
        · exact .inr ⟨h, hx⟩

theorem onceEach_nodup : ∀ ks : List Str, (onceEach ks).Nodup := by
  intro ks
  induction ks with
  | nil => simp [onceEach]
  | cons x xs ih =>
    simp only [onceEach, List.nodup_cons, List.mem_filter, decide_eq_true_eq]
    exact ⟨fun h => h.2 rfl, ih.filter _⟩

theorem onceEach_append (k : Str) : ∀ ks : List Str,
    onceEach (ks ++ [k]) = if k ∈ ks then onceEach ks else onceEach ks ++ [k] := by
  intro ks
  induction ks with
  | nil => simp [onceEach]
  | cons x xs ih =>
    simp only [List.cons_append, onceEach, ih, List.mem_cons]
    by_cases hx : k = x
    · subst hx
      simp only [true_or, if_true]
      split <;> simp [List.filter_append]
    · simp only [hx, false_or]
      split
      · rfl
      · simp [List.filter_append, hx]

theorem lastOf_append (rules : List (Str × Str)) (k v x : Str) :
    lastOf (rules ++ [(k, v)]) x = if x = k then some v else lastOf rules x := by
  unfold lastOf
  rw [List.filter_append]
  by_cases h : x = k
  · subst h
    simp
  · have h' : ¬ k = x := fun e => h e.symm
    simp [h, h']

theorem lastOf_isSome {rules : List (Str × Str)} {k : Str} (h : k ∈ rules.map Prod.fst) : ∃ v, lastOf rules k = some v := by
  unfold lastOf
  obtain ⟨x, hx, rfl⟩ := List.mem_map.1 h
  have hm : x ∈ rules.filter (fun r => decide (r.1 = x.1)) := List.mem_filter.2 ⟨hx, by simp⟩
  cases hg : (rules.filter (fun r => decide (r.1 = x.1))).getLast? with
  | none => rw [List.getLast?_eq_none_iff.1 hg] at hm; cases hm
  | some y => exact ⟨y.2, rfl⟩

/-- The table of a specification. -/
def tableOf (rules : List (Str × Str)) : List (Str × Option Str) :=
  (onceEach (rules.map Prod.fst)).map fun k => (k, lastOf rules k)

theorem tableInsert_map (key : Str) (value : Option Str) (f : Str → Option Str) : ∀ ks : List Str, ks.Nodup →
    tableInsert key value (ks.map fun k => (k, f k)) =
      if key ∈ ks then ks.map (fun k => (k, if k = key then value else f k))
      else ks.map (fun k => (k, f k)) ++ [(key, value)] := by
  intro ks
  induction ks with
  | nil => intro _; rfl
  | cons x xs ih =>
    intro hn
    obtain ⟨h1, h2⟩ := List.nodup_cons.1 hn
    simp only [List.map_cons, tableInsert]
    by_cases hx : x = key
    · subst hx
      rw [if_pos rfl, if_pos (by simp)]
      simp only [if_true, List.cons.injEq, true_and]
      apply List.map_congr_left
      intro k hk
      rw [if_neg (by rintro rfl; exact h1 hk)]
    · have hx' : ¬ key = x := fun e => hx e.symm
      rw [if_neg hx, ih h2]
      simp only [List.mem_cons, hx', false_or, if_neg hx]
      split <;> rfl

theorem tableInsert_tableOf (rules : List (Str × Str)) (k v : Str) :
    tableInsert k (some v) (tableOf rules) = tableOf (rules ++ [(k, v)]) := by
  unfold tableOf
  rw [tableInsert_map _ _ _ _ (onceEach_nodup _), List.map_append, List.map_cons, List.map_nil, onceEach_append]
  simp only [mem_onceEach, lastOf_append]
  split
  · rfl
  · next hk =>
    rw [List.map_append]
    simp only [List.map_cons, List.map_nil, if_true]
    congr 1
    apply List.map_congr_left
    intro x hx
    rw [if_neg (by rintro rfl; exact hk (mem_onceEach.1 hx))]

theorem specTable_tableOf : ∀ {rs : List Str} {ps before : List (Str × Str)}, parseMapRules rs = .ok ps →
    specTable rs (tableOf before) = .ok (tableOf (before ++ ps)) := by
  intro rs
  induction rs with
  | nil => intro ps before h; cases h; simp [specTable]
  | cons r rs ih =>
    intro ps before h
    simp only [parseMapRules] at h
    obtain ⟨⟨a, b⟩, h1, h⟩ := Res.bind_eq_ok.1 h
    obtain ⟨ps', h2, h⟩ := Res.bind_eq_ok.1 h
    cases h
    simp only [specTable, h1, Res.ok_bind, tableInsert_tableOf]
    rw [ih h2]
    simp

theorem specRules_tableOf (rules : List (Str × Str)) : specRules (tableOf rules) = .ok (lastWins rules) := by
  unfold tableOf lastWins
  have : ∀ ks : List Str, (∀ k ∈ ks, k ∈ rules.map Prod.fst) →
      specRules (ks.map fun k => (k, lastOf rules k)) =
        .ok (ks.filterMap fun k => (lastOf rules k).map fun v => (k, v)) := by
    intro ks
    induction ks with
    | nil => intro _; rfl
    | cons k ks ih =>
      intro hk
      obtain ⟨v, hv⟩ := lastOf_isSome (hk k (by simp))
      simp only [List.map_cons, hv, specRules, ih (fun x hx => hk x (by simp [hx])), Res.ok_bind, List.filterMap_cons,
        Option.map_some]
      rfl
  exact this _ (fun k hk => mem_onceEach.1 hk)

theorem mem_lastWins {rules : List (Str × Str)} {x : Str × Str} (h : x ∈ lastWins rules) : x ∈ rules := by
  unfold lastWins at h
  obtain ⟨k, _, hk⟩ := List.mem_filterMap.1 h
  obtain ⟨v, hv, rfl⟩ := Option.map_eq_some_iff.1 hk
  unfold lastOf at hv
  obtain ⟨y, hy, rfl⟩ := Option.map_eq_some_iff.1 hv
  obtain ⟨hy1, hy2⟩ := List.mem_filter.1 (List.mem_of_getLast? hy)
  simp only [decide_eq_true_eq] at hy2
  subst hy2
  exact hy1

/-- Rules that repeat no pattern are kept as they are. -/
theorem lastWins_nodup {rules : List (Str × Str)} (h : (rules.map Prod.fst).Nodup) : lastWins rules = rules := by
  have h1 := specRules_tableOf rules
  have h2 : ∀ ks : List Str, ks.Nodup → onceEach ks = ks := by
    intro ks
    induction ks with
    | nil => intro _; rfl
    | cons k ks ih =>
      intro hn
      obtain ⟨n1, n2⟩ := List.nodup_cons.1 hn
      simp only [onceEach, ih n2, List.cons.injEq, true_and]
      exact List.filter_eq_self.2 (fun x hx => by simp; rintro rfl; exact n1 hx)
  unfold lastWins
  rw [h2 _ h, List.filterMap_map]
  have h3 : ∀ x ∈ rules, lastOf rules x.1 = some x.2 := by
    intro x hx
    unfold lastOf
    obtain ⟨s, t, rfl⟩ := List.append_of_mem hx
    rw [List.map_append, List.map_cons, List.nodup_append] at h
    obtain ⟨_, k2, k3⟩ := h
    have hs : s.filter (fun r => decide (r.1 = x.1)) = [] := by
      rw [List.filter_eq_nil_iff]
      intro y hy
      simp only [decide_eq_true_eq]
      exact fun e => k3 _ (List.mem_map_of_mem hy) _ (by simp) e
    have ht : t.filter (fun r => decide (r.1 = x.1)) = [] := by
      rw [List.filter_eq_nil_iff]
      intro y hy
      simp only [decide_eq_true_eq]
      exact fun e => (List.nodup_cons.1 k2).1 (e ▸ List.mem_map_of_mem hy)
    rw [List.filter_append, List.filter_cons, hs, ht]
    simp
  have h4 : ∀ l : List (Str × Str), (∀ x ∈ l, lastOf rules x.1 = some x.2) →
      l.filterMap ((fun k => (lastOf rules k).map fun v => (k, v)) ∘ Prod.fst) = l := by
    intro l
    induction l with
    | nil => intro _; rfl
    | cons x l ih =>
      intro hl
      rw [List.filterMap_cons]
      simp only [Function.comp_apply, hl x (by simp), Option.map_some]
      rw [ih (fun y hy => hl y (by simp [hy]))]
  exact h4 rules h3

/-! ## The command -/

/-- **C149, the file.**  `image-spec from` changes nothing but its output file: at every moment, and in the end.  It
leaves this file as it is if the rules are refused; and if it reports success, the file holds exactly the text of the
specification.  Without an output file the text is printed, and nothing changes. -/
theorem C149_only_file {h : Host} {print : ImageSpec → Bytes} {cut : Option Nat} {fs : HostFs}
    {rules : Option (List Str)} {output : Option Str} :
    (∀ file, (cmdImageSpec h print cut fs rules output (some file)).1 ≠ [] →
      (∀ st ∈ (cmdImageSpec h print cut fs rules output (some file)).1, ∀ q, q ≠ placeOf h file → st q = fs q) ∧
      ∃ spec, imageSpecFrom rules output = .ok spec) ∧
    (∀ file st out, (cmdImageSpec h print cut fs rules output (some file)).2 = .ok (st, out) → out = [] ∧
      ∃ spec, imageSpecFrom rules output = .ok spec ∧ IsFile st (placeOf h file) (print spec) ∧
        ∀ q, q ≠ placeOf h file → st q = fs q) ∧
    (∀ st out, (cmdImageSpec h print cut fs rules output none).2 = .ok (st, out) → st = fs ∧
      ∃ spec, imageSpecFrom rules output = .ok spec ∧ out = print spec) := by
  refine ⟨?_, ?_, ?_⟩
  · intro file hne
    unfold cmdImageSpec at hne ⊢
    cases hs : imageSpecFrom rules output with
    | ok spec =>
      rw [hs] at hne
      refine ⟨?_, spec, rfl⟩
      simp only at hne ⊢
      cases ho : h.openOutput file fs with
      | ok x =>
        obtain ⟨p, fs1⟩ := x
        obtain ⟨_, rfl, _, _, rfl⟩ := openOutput_ok ho
        intro st hst q hq
        cases cut <;> simp only [List.mem_cons, List.not_mem_nil, or_false] at hst <;>
          rcases hst with rfl | rfl <;> simp [set_other hq]
      | err e => rw [ho] at hne; exact absurd rfl hne
      | panic => rw [ho] at hne; exact absurd rfl hne
      | hang => rw [ho] at hne; exact absurd rfl hne
    | err e => rw [hs] at hne; exact absurd rfl hne
    | panic => rw [hs] at hne; exact absurd rfl hne
    | hang => rw [hs] at hne; exact absurd rfl hne
  · intro file st out h1
    unfold cmdImageSpec at h1
    cases hs : imageSpecFrom rules output with
    | ok spec =>
      rw [hs] at h1
      simp only at h1
      cases ho : h.openOutput file fs with
      | ok x =>
        obtain ⟨p, fs1⟩ := x
        obtain ⟨_, rfl, _, _, rfl⟩ := openOutput_ok ho
        rw [ho] at h1
        cases cut with
        | none =>
          cases h1
          exact ⟨rfl, spec, rfl, set_same _ _ _, fun q hq => by rw [set_other hq, set_other hq]⟩
        | some k => cases h1
      | err e => rw [ho] at h1; cases h1
      | panic => rw [ho] at h1; cases h1
      | hang => rw [ho] at h1; cases h1
    | err e => rw [hs] at h1; cases h1
    | panic => rw [hs] at h1; cases h1
    | hang => rw [hs] at h1; cases h1
  · intro st out h1
    unfold cmdImageSpec at h1
    cases hs : imageSpecFrom rules output with
    | ok spec => rw [hs] at h1; cases h1; exact ⟨rfl, spec, rfl, rfl⟩
    | err e => rw [hs] at h1; cases h1
    | panic => rw [hs] at h1; cases h1
    | hang => rw [hs] at h1; cases h1

/-- **C149, building.**  `image-spec from` has written the rules `pairs`, given as `rs` with `-m`, and the output
`output`, given with `-O`, to a file, and `build-image` is run later, in whatever directory, with this file as its
specification.  Then it does exactly what it does with `-m` options for these rules, where a pattern that is repeated
counts where it is first and with the image path it has last, and with the output as its image path, seen from the
directory that is mapped, unless an image path is given. -/
theorem C149_build {h h' : Host} {print : ImageSpec → Bytes} {parse : Bytes → Option ImageSpec}
    (hcodec : ∀ s, parse (print s) = some s) {cut : Option Nat} {fs st : HostFs} {pairs : List (Str × Str)} {rs : List Str}
    (hrs : AllWritten pairs rs) (hcol : ∀ p ∈ pairs, ':' ∉ p.1 ∧ ':' ∉ p.2) {output : Option Str} {file : Str} {out : Bytes}
    (hrun : (cmdImageSpec h print cut fs (some rs) output (some file)).2 = .ok (st, out))
    {a : BuildStrings} (ha : a.rules = none) {s : Str} (hs : UsesSpec h' st a s) {n : HostNode}
    (hstat : h'.stat st s = some (placeOf h file, n)) {rs' : List Str} (hrs' : AllWritten (lastWins pairs) rs')
    {d : Str} (hd : MapsDir h' st a d) (t : Tool) (G : GlobEngine) (r : DirReader) (self : Bytes) (faults : Faults) :
    cmdBuildStrings h' t G parse r self faults st a =
      cmdBuildStrings h' t G parse r self faults st { a with
        spec := none
        rules := some rs'
        image := match a.image with | some i => some i | none => output.map (pathJoin d) } := by
  have hp := parseMapRules_written hrs hcol
  have hp' := parseMapRules_written hrs' (fun p hp => hcol p (mem_lastWins hp))
  obtain ⟨_, spec, h1, h2, _⟩ := C149_only_file.2.1 _ _ _ hrun
  have hspec : spec = ⟨output, some (tableOf pairs)⟩ := by
    simp only [imageSpecFrom] at h1
    rw [show ([] : List (Str × Option Str)) = tableOf [] from rfl, specTable_tableOf hp] at h1
    cases h1
    rfl
  subst hspec
  have hn : n = .file (print ⟨output, some (tableOf pairs)⟩) := by
    have := (stat_some hstat).2.2
    rw [h2] at this
    cases this
    rfl
  subst hn
  have hpath : ∃ x, a.spec.getD x = s ∧ ∀ b : BuildStrings, b.source = a.source →
      buildPathStrings h' st b = .ok (b.spec.getD x, d) := by
    rcases hd with ⟨⟨p, hp⟩, rfl⟩ | ⟨hno, hpar⟩
    · refine ⟨pathJoin (sourceOf h' a) specName, ?_, ?_⟩
      · rcases hs with e | ⟨e, ⟨_, rfl⟩ | ⟨hno, _⟩⟩
        · rw [e]; rfl
        · rw [e]; rfl
        · exact absurd hp (hno p)
      · intro b hb
        have : h'.stat st (a.source.getD (pathStr h'.cwd)) = some (p, .dir) := hp
        unfold buildPathStrings
        simp only [hb, this]
        rfl
    · refine ⟨sourceOf h' a, ?_, ?_⟩
      · rcases hs with e | ⟨e, ⟨⟨p, hp⟩, _⟩ | ⟨_, rfl⟩⟩
        · rw [e]; rfl
        · exact absurd hp (hno p)
        · rw [e]; rfl
      · intro b hb
        unfold buildPathStrings
        simp only [hb]
        split
        · next p hp => exact absurd hp (hno p)
        · rw [show pathParent (a.source.getD (pathStr h'.cwd)) = some d from hpar]
          rfl
  obtain ⟨x, hs1, hpath⟩ := hpath
  have hspec1 : buildSpecString parse h' st a s = .ok (some ⟨output, some (tableOf pairs)⟩) := by
    unfold buildSpecString
    rw [hstat, ha]
    simp only [hcodec]
  generalize hb : ({ a with
        spec := none
        rules := some rs'
        image := match a.image with | some i => some i | none => output.map (pathJoin d) } : BuildStrings) = b
  have b1 : b.source = a.source := by rw [← hb]
  have b2 : b.rules = some rs' := by rw [← hb]
  have b3 : b.dryRun = a.dryRun := by rw [← hb]
  have hspec2 : ∀ x, buildSpecString parse h' st b x = .ok none := by
    intro x
    unfold buildSpecString
    rw [b2]
    split <;> first | rfl | (next e => cases e)
  have hrules : buildRuleStrings a (some ⟨output, some (tableOf pairs)⟩) = buildRuleStrings b none := by
    unfold buildRuleStrings
    simp only [ha, b2, Option.getD_none, Option.bind_some, Option.getD_some, Option.bind_none, specRules_tableOf, hp']
    simp [parseMapRules, specRules]
  have hout : buildOutputString a (some ⟨output, some (tableOf pairs)⟩) d = buildOutputString b none d := by
    rw [← hb]
    unfold buildOutputString
    cases a.image with
    | some i => rfl
    | none => cases output <;> rfl
  unfold cmdBuildStrings
  simp only [hpath a rfl, hpath b b1, Res.ok_bind, hs1, hspec1, hspec2, hrules, hout, b3]

/-- **C149, refused rules.**  If `image-spec from` refuses the rules, nothing changes, and `build-image` refuses them,
too. -/
theorem C149_refused {h h' : Host} {print : ImageSpec → Bytes} {parse : Bytes → Option ImageSpec} {cut : Option Nat}
    {fs : HostFs} {rs : List Str} {output file : Option Str} (hrun : ∀ spec, imageSpecFrom (some rs) output ≠ .ok spec)
    (t : Tool) (G : GlobEngine) (r : DirReader) (self : Bytes) (faults : Faults) (fs' : HostFs) {a : BuildStrings}
    (ha : a.rules = some rs) :
    (cmdImageSpec h print cut fs (some rs) output file).1 = [] ∧
    (∀ x, (cmdImageSpec h print cut fs (some rs) output file).2 ≠ .ok x) ∧
    (cmdBuildStrings h' t G parse r self faults fs' a).1 = [] ∧
    Failed (cmdBuildStrings h' t G parse r self faults fs' a) := by
  have hbad : ∀ ps, parseMapRules rs ≠ .ok ps := by
    intro ps hps
    refine hrun ⟨output, some (tableOf ps)⟩ ?_
    simp only [imageSpecFrom]
    rw [show ([] : List (Str × Option Str)) = tableOf [] from rfl, specTable_tableOf hps]
    rfl
  have hrules : ∀ x y, buildRuleStrings a x ≠ .ok y := by
    intro x y hx
    unfold buildRuleStrings at hx
    obtain ⟨ps, h1, _⟩ := Res.bind_eq_ok.1 hx
    rw [ha] at h1
    exact hbad ps h1
  have hb : (cmdBuildStrings h' t G parse r self faults fs' a).1 = [] ∧
      Failed (cmdBuildStrings h' t G parse r self faults fs' a) := by
    unfold cmdBuildStrings Failed
    simp only
    split
    · next h1 =>
      exfalso
      obtain ⟨x, _, h2⟩ := Res.bind_eq_ok.1 h1
      obtain ⟨spec, _, h3⟩ := Res.bind_eq_ok.1 h2
      obtain ⟨y, h4, _⟩ := Res.bind_eq_ok.1 h3
      exact hrules _ _ h4
    all_goals exact ⟨rfl, nofun⟩
  refine ⟨?_, ?_, hb⟩
  · unfold cmdImageSpec
    cases hs : imageSpecFrom (some rs) output with
    | ok spec => exact absurd hs (hrun spec)
    | _ => rfl
  · unfold cmdImageSpec
    cases hs : imageSpecFrom (some rs) output with
    | ok spec => exact absurd hs (hrun spec)
    | _ => nofun

/-- **C149, in place.**  After `image-spec from -m … xdvdfs.toml` in a directory, `build-image` without further arguments
does what `build-image` with the `-m` options does, if no pattern is repeated. -/
theorem C149_in_place {h : Host} {print : ImageSpec → Bytes} {parse : Bytes → Option ImageSpec}
    (hcodec : ∀ s, parse (print s) = some s) {cut : Option Nat} {fs st : HostFs} (hw : WellFormedHost fs)
    (hn : ProperNames fs) (hcwd : fs h.cwd = some .dir) {pairs : List (Str × Str)} {rs : List Str}
    (hrs : AllWritten pairs rs) (hcol : ∀ p ∈ pairs, ':' ∉ p.1 ∧ ':' ∉ p.2) (hnd : (pairs.map Prod.fst).Nodup) {out : Bytes}
    (hrun : (cmdImageSpec h print cut fs (some rs) none (some specName)).2 = .ok (st, out)) (dry : Bool) (image : Option Str)
    (t : Tool) (G : GlobEngine) (r : DirReader) (self : Bytes) (faults : Faults) :
    cmdBuildStrings h t G parse r self faults st ⟨none, none, none, dry, none, image⟩ =
      cmdBuildStrings h t G parse r self faults st ⟨none, some rs, none, dry, none, image⟩ := by
  obtain ⟨_, spec, h1, h2, h3⟩ := C149_only_file.2.1 _ _ _ hrun
  have hnp : NamesPlace h fs specName (h.cwd ++ [specName]) :=
    ⟨[], h.cwd, specName, rfl, specName_name, ⟨.inl rfl, hcwd, .inl ⟨rfl, rfl⟩⟩, rfl⟩
  have hpl := resolve_place (namesPlace_resolve hnp)
  rw [← hpl] at h2 h3
  have hold : fs (h.cwd ++ [specName]) ≠ some .dir := by
    unfold cmdImageSpec at hrun
    rw [h1] at hrun
    simp only at hrun
    cases ho : h.openOutput specName fs with
    | ok x =>
      obtain ⟨_, e1, e2, _⟩ := openOutput_ok ho
      rw [e1, ← hpl] at e2
      exact e2
    | err e => rw [ho] at hrun; cases hrun
    | panic => rw [ho] at hrun; cases hrun
    | hang => rw [ho] at hrun; cases hrun
  have hst : st = fs.set (h.cwd ++ [specName]) (.file (print spec)) := by
    funext q
    by_cases hq : q = h.cwd ++ [specName]
    · subst hq; rw [h2, set_same]
    · rw [h3 q hq, set_other hq]
  have hw' : WellFormedHost st := by
    rw [hst]
    exact WellFormedHost.set hw (.inl hold) (.inr (by simpa using hcwd))
  have hn' : ProperNames st := by
    intro q c hqc
    by_cases hq : q ++ [c] = h.cwd ++ [specName]
    · obtain ⟨_, e⟩ := List.append_inj' hq rfl
      cases e
      exact specName_name
    · rw [h3 _ hq] at hqc
      exact hn q c hqc
  have hcwd' : st h.cwd = some .dir := by
    rw [h3 _ (fun e => by simpa using congrArg List.length e)]
    exact hcwd
  have hstat : h.stat st (pathStr h.cwd) = some (h.cwd, .dir) := by
    rcases cwd_named (h := h) hw' hn' hcwd' with hnd | ⟨e1, e2⟩
    · exact stat_of_dir (namesDir_resolve hnd) hcwd'
    · rw [e1, e2]
      exact root_stat h hw'
  have hspec := namesPlace_stat (namesPlace_join hstat specName_name)
  rw [h2] at hspec
  have := C149_build (h' := h) hcodec hrs hcol hrun (a := ⟨none, none, none, dry, none, image⟩) rfl
    (s := pathJoin (pathStr h.cwd) specName) (.inr ⟨rfl, .inl ⟨⟨_, hstat⟩, rfl⟩⟩) (n := .file (print spec))
    (by rw [hspec, ← hpl]; rfl) (rs' := rs) (by rw [lastWins_nodup hnd]; exact hrs) (.inl ⟨⟨_, hstat⟩, rfl⟩) t G r self faults
  rw [this]
  cases image <;> rfl

/-! ## The hypotheses are met -/

/-- In `/s`, `image-spec from -m a:x -m '!b' xdvdfs.toml`, with any text format that can be read back. -/
example (print : ImageSpec → Bytes) : WellFormedHost pairHost ∧ ProperNames pairHost ∧
    AllWritten [(['a'], ['x']), (['!', 'b'], [])] [['a', ':', 'x'], ['!', 'b']] ∧
    ∃ st, (cmdImageSpec ⟨[['s']], fun _ => .none⟩ print none pairHost (some [['a', ':', 'x'], ['!', 'b']]) none
      (some specName)).2 = .ok (st, []) ∧
      IsFile st [['s'], specName] (print ⟨none, some [(['a'], some ['x']), (['!', 'b'], some [])]⟩) :=
  ⟨pair_wellFormed, pair_properNames, ⟨.inl rfl, .inr ⟨rfl, rfl, rfl⟩, trivial⟩, _, rfl, rfl⟩

/-- A repeated pattern, and an output. -/
example : lastWins [(['a'], ['x']), (['!', 'a'], []), (['a'], ['y'])] = [(['a'], ['y']), (['!', 'a'], [])] ∧
    (∀ spec, imageSpecFrom (some [['a']]) none ≠ .ok spec) := ⟨by decide, by intro spec h; cases h⟩

end Xdvdfs.Props
