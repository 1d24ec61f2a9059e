import Verif.Props.BuildImage

/-!
# `-m` rules with any number of colons (C84)
-/

namespace Xdvdfs.Spec

/-- How a `-m` rule is understood: what is before the first colon, and what is between it and the second. -/
def readAs (rule : Str) : Str × Str := (hostPart rule, hostPart (rule.drop ((hostPart rule).length + 1)))

end Xdvdfs.Spec

namespace Xdvdfs.Props
open Xdvdfs Spec

namespace RulesExact

theorem hostPart_self {s : Str} (h : ':' ∉ s) : hostPart s = s := by
  induction s with
  | nil => rfl
  | cons c cs ih =>
    have hc : c ≠ ':' := fun e => h (by simp [e])
    have he : hostPart (c :: cs) = c :: hostPart cs := by simp [hostPart, hc]
    rw [he, ih (fun hm => h (by simp [hm]))]

theorem split_at {s : Str} (h : ':' ∈ s) : ':' ∉ hostPart s ∧
    s = hostPart s ++ ':' :: s.drop ((hostPart s).length + 1) := by
  induction s with
  | nil => cases h
  | cons c cs ih =>
    by_cases hc : c = ':'
    · subst hc; simp [hostPart]
    · have he : hostPart (c :: cs) = c :: hostPart cs := by simp [hostPart, hc]
      have h' : ':' ∈ cs := by
        rcases List.mem_cons.1 h with h | h
        · exact absurd h.symm hc
        · exact h
      obtain ⟨h1, h2⟩ := ih h'
      rw [he]
      refine ⟨?_, ?_⟩
      · intro hm
        rcases List.mem_cons.1 hm with hm | hm
        · exact hc hm.symm
        · exact h1 hm
      · simp only [List.cons_append, List.length_cons, List.drop_succ_cons, List.cons.injEq, true_and]
        exact h2

theorem split_head (s : Str) : ∃ r, splitColonLoop s [] = hostPart s :: r := by
  by_cases h : ':' ∈ s
  · obtain ⟨h1, h2⟩ := split_at h
    refine ⟨splitColonLoop (s.drop ((hostPart s).length + 1)) [], ?_⟩
    rw [← splitColon_some h1, ← h2]
  · exact ⟨[], by rw [splitColon_none h, hostPart_self h]⟩

theorem rule_exact (s : Str) :
    ((':' ∈ s ∨ s.head? = some '!') → parseMapRule s = .ok (readAs s)) ∧
    (¬ (':' ∈ s ∨ s.head? = some '!') → parseMapRule s = .err .other) := by
  unfold parseMapRule readAs
  by_cases h : ':' ∈ s
  · refine ⟨fun _ => ?_, fun hn => absurd (.inl h) hn⟩
    obtain ⟨h1, h2⟩ := split_at h
    obtain ⟨r, hr⟩ := split_head (s.drop ((hostPart s).length + 1))
    have e : splitColonLoop s [] = hostPart s :: hostPart (s.drop ((hostPart s).length + 1)) :: r := by
      rw [← hr, ← splitColon_some h1, ← h2]
    rw [e]
  · rw [splitColon_none h, hostPart_self h]
    have e : s.drop (s.length + 1) = [] := List.drop_eq_nil_of_le (by omega)
    rw [e]
    constructor
    · rintro (h' | h')
      · exact absurd h' h
      · simp only [h', if_true]; rfl
    · intro hn
      have : ¬ s.head? = some '!' := fun h' => hn (.inr h')
      simp only [this, if_false]

theorem rules_exact (rs : List Str) :
    ((∀ x ∈ rs, ':' ∈ x ∨ x.head? = some '!') → parseMapRules rs = .ok (rs.map readAs)) ∧
    ((¬ ∀ x ∈ rs, ':' ∈ x ∨ x.head? = some '!') → parseMapRules rs = .err .other) := by
  induction rs with
  | nil => exact ⟨fun _ => rfl, fun h => absurd (by simp) h⟩
  | cons x xs ih =>
    by_cases hx : ':' ∈ x ∨ x.head? = some '!'
    · unfold parseMapRules
      rw [(rule_exact x).1 hx, Res.ok_bind]
      constructor
      · intro h
        rw [ih.1 (fun y hy => h y (by simp [hy])), Res.ok_bind]
        rfl
      · intro h
        rw [ih.2 ?_]
        · rfl
        · intro h'
          apply h
          intro y hy
          rcases List.mem_cons.1 hy with rfl | hy
          · exact hx
          · exact h' y hy
    · constructor
      · intro h; exact absurd (h x (by simp)) hx
      · intro _
        unfold parseMapRules
        rw [(rule_exact x).2 hx]
        rfl

end RulesExact

/-- C84 for any rules: every `-m` rule is understood as the pattern before its first colon and the image path between the first
colon and the second; what follows is ignored.  A dry run prints only mappings of what is in the mapped directory, to the place
where the rules, understood like this, map it; if no file is mapped to the root or over something else, it prints one for
every file that they map; and the command fails if there is a rule without a colon that is not an exclusion. -/
theorem C84_rules_understood (t : Tool) (G : GlobEngine) (parse : Bytes → Option ImageSpec) (r : DirReader)
    (self : Bytes) (faults : Faults) (fs : HostFs) (a : BuildArgs) (rs : List Str) (hr : a.rules = some rs) :
    (a.dryRun = true → ∀ b, (cmdBuildImage t G parse r self faults fs a).2 = .ok b → ∀ src, MappedDir fs a src →
      (∀ h q, (h, q) ∈ b.lines → fs (src ++ h) ≠ none ∧ MapsTo G (rs.map readAs) h q) ∧
      (ReadsHost r fs → WellFormedHost fs → NoConflicts G (rs.map readAs) (stdFs r fs src).readDir → ∀ h data, h ≠ [] →
        IsFile fs (src ++ h) data → IsMapped G (rs.map readAs) h →
        ∃ q, MapsTo G (rs.map readAs) h q ∧ (h, q) ∈ b.lines)) ∧
    ((∃ x ∈ rs, ':' ∉ x ∧ x.head? ≠ some '!') → Failed (cmdBuildImage t G parse r self faults fs a)) := by
  constructor
  · intro hdry b hb src hsrc
    obtain ⟨plan, hp, hrun⟩ := cmdBuild_ok hb
    have hps := buildPlan_rules hr hp
    have hall : ∀ x ∈ rs, ':' ∈ x ∨ x.head? = some '!' := by
      apply Classical.byContradiction
      intro h
      rw [(RulesExact.rules_exact rs).2 h] at hps
      cases hps
    rw [(RulesExact.rules_exact rs).1 hall] at hps
    have hrules : plan.rules = rs.map readAs := (Res.ok.inj hps).symm
    rw [hdry] at hrun
    obtain ⟨trie, ht, hl⟩ := runBuild_dry_ok hrun
    have hs := mappedDir_unique hsrc (buildPlan_ok hp).1
    rw [hrules, ← hs] at ht
    obtain ⟨g1, _, _⟩ := C49_remap_precedence ht
    constructor
    · intro h q hm
      obtain ⟨⟨d, e, he, rfl⟩, hmap⟩ := g1 _ _ _ _ hl hm
      refine ⟨?_, hmap⟩
      rcases std_entry_host (r := r) he with ⟨_, k⟩ | ⟨_, data, k, _⟩ <;> rw [k] <;> nofun
    · intro hrd hwf hnc h data hne hfile hmap
      have hfile : fs (src ++ h) = some (.file data) := hfile
      obtain ⟨p, e, he, rfl⟩ := std_host_entry hrd hwf (remapNew_listable ht) _ rfl hne (by rw [hfile]; nofun)
      have hf : e.isDir = false := by
        rcases std_entry_host he with ⟨_, k⟩ | ⟨k, _⟩
        · rw [hfile] at k; cases k
        · exact k
      obtain ⟨d, n, k1, k2, _⟩ := C69_mapped_files_partial (host := stdFs r fs src) ht hnc he hf hmap (Nat.le_refl _)
      obtain ⟨p', e', o1, o2, _, o4, _, o6⟩ := C50_listing_copy_agree (host := stdFs r fs src) ht k2 rfl
      refine ⟨_, k1, ?_⟩
      by_cases hx : (p', e') = (p, e)
      · cases hx; exact o6 _ _ hl
      · exact absurd (List.prefix_refl _) ((hnc p e _ he hf k1).2 p' e' _ o1 hx o4)
  · rintro ⟨x, hx, h1, h2⟩ b hb
    exact (C84_rules_partial t G parse r self faults fs a rs hr).2 x hx h1 h2 b hb

/-- `a:b:c` is understood as `a:b`, and `!a` as an exclusion. -/
example : readAs ['a', ':', 'b', ':', 'c'] = (['a'], ['b']) ∧ readAs ['!', 'a'] = (['!', 'a'], []) ∧
    parseMapRules [['a', ':', 'b', ':', 'c'], ['!', 'a']] = .ok [(['a'], ['b']), (['!', 'a'], [])] :=
  ⟨rfl, rfl, (RulesExact.rules_exact _).1 (by decide)⟩

end Xdvdfs.Props
