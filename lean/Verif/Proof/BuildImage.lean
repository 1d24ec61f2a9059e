import Verif.Spec.BuildImage
import Verif.Proof.Remap
import Verif.Proof.StdFs

/-!
# `build-image`
-/

namespace Xdvdfs

open Spec

/-! ## The overlay and its dump -/

theorem dump_dir {t : Trie MapEntry} (ht : Trie.WF t) {k k' : Nat} (hL : Listable (remapReadDir t k')) {p q : Path}
    (h : Reach (dumpStep t k) p q) : DirOf (remapReadDir t k') p → DirOf (remapReadDir t k') q := by
  induction h with
  | refl n => exact id
  | step h1 h2 _ ih =>
    intro hp
    have hlat := (overlay_dir ht hp).1
    obtain ⟨n, m, e1, e2, e3⟩ := ((dumpStep_ok ht hlat h1).1 _).1 h2
    obtain ⟨l, hl⟩ := hL _ hp
    subst e1
    have := (remapReadDir_mem ht hlat hl ⟨n, true, m.hostEntry.len⟩).2 ⟨m, e2, e3.symm, rfl⟩
    exact ih (.sub hp hl this rfl)

/-- Every mapping that the dump reports is an entry of the overlay. -/
theorem dump_listed {t : Trie MapEntry} (ht : Trie.WF t) {k k' k'' : Nat} (hL : Listable (remapReadDir t k''))
    {out : List (Path × Path)} (h : dumpLoop t k k' [[]] [] = .ok out) {hp q : Path} (hm : (hp, q) ∈ out) :
    ∃ d e m, q = d ++ [e.name] ∧ EntryIn (remapReadDir t k'') d e ∧ Trie.look q t = some m ∧ m.isPrefixDir = false ∧
      m.hostPath = hp ∧ e.isDir = m.hostEntry.isDir ∧ e.len = m.hostEntry.len := by
  rw [dumpLoop_dfs] at h
  rcases ((dfs_ok h).1 (hp, q)).1 hm with hm | ⟨n, hn, n', cs, os, hr, hs, ho⟩
  · cases hm
  · rw [List.mem_singleton] at hn
    subst hn
    have hD := dump_dir ht hL hr .root
    have hlat := (overlay_dir ht hD).1
    obtain ⟨c, m, e1, e2, e3⟩ := ((dumpStep_ok ht hlat hs).2 _).1 ho
    cases e1
    obtain ⟨l, hl⟩ := hL _ hD
    exact ⟨n', ⟨c, m.hostEntry.isDir, m.hostEntry.len⟩, m, rfl,
      ⟨hD, l, hl, (remapReadDir_mem ht hlat hl _).2 ⟨m, e2, rfl, rfl⟩⟩, e2, e3, rfl, rfl, rfl⟩

/-- If the overlay could be built, every directory of the host could be listed. -/
theorem remapNew_listable {G : GlobEngine} {cfg : List Rule} {readDir : Path → Res (List FileEntry)} {fuel : Nat}
    {t : Trie MapEntry} (h : remapNew G cfg readDir fuel = .ok t) : Listable readDir := by
  unfold remapNew at h
  obtain ⟨rules, h1, h2⟩ := Res.bind_eq_ok.1 h
  obtain ⟨ms, h3, h4⟩ := Res.bind_eq_ok.1 h2
  rw [remapWalk_dfs] at h3
  obtain ⟨_, h5⟩ := dfs_ok h3
  intro p hp
  obtain ⟨o, ho⟩ := dir_reached (rules := rules) hp
  obtain ⟨cs, os, hs⟩ := h5 _ (by simp) _ ho
  obtain ⟨l, hl, _⟩ := walkStep_ok.1 hs
  exact ⟨l, hl⟩

/-! ## Changes outside the source -/

theorem stdEntries_set {r : DirReader} {fs : HostFs} {dir q : HostPath} {n : HostNode} (h : ∀ c, dir ++ [c] ≠ q) :
    ∀ names, stdEntries r (fs.set q n) dir names = stdEntries r fs dir names := by
  intro names
  induction names with
  | nil => rfl
  | cons c cs ih =>
    have : stdEntry r (fs.set q n) dir c = stdEntry r fs dir c := by
      unfold stdEntry HostFs.set
      rw [if_neg (h c)]
    simp only [stdEntries, this, ih]

/-- What is written outside of a directory is not seen in it. -/
theorem stdReadDir_set {r : DirReader} {fs : HostFs} {root q : HostPath} {n : HostNode} (h : ¬ root <+: q) :
    stdReadDir r (fs.set q n) root = stdReadDir r fs root := by
  funext p
  have h1 : ∀ s, root ++ s ≠ q := fun s he => h ⟨s, he⟩
  unfold stdReadDir
  have : (fs.set q n) (root ++ p) = fs (root ++ p) := by unfold HostFs.set; rw [if_neg (h1 p)]
  rw [this]
  split
  · exact stdEntries_set (fun c => by rw [List.append_assoc]; exact h1 _) _
  · rfl

/-! ## Rules -/

theorem splitColonLoop_eq : ∀ (s cur : Str), splitColonLoop s cur =
    if ':' ∈ s then (cur.reverse ++ hostPart s) :: splitColonLoop (s.dropWhile (fun c => c ≠ ':')).tail []
    else [cur.reverse ++ s] := by
  intro s
  induction s with
  | nil => intro cur; simp [splitColonLoop]
  | cons c cs ih =>
    intro cur
    by_cases hc : c = ':'
    · subst hc; simp [hostPart, splitColonLoop]
    · rw [splitColonLoop, if_neg hc, ih]
      have hc' : ¬ ':' = c := fun h => hc h.symm
      simp only [List.mem_cons, hc', false_or]
      split
      · simp [hostPart, hc]
      · simp

theorem splitColon_none {s : Str} (h : ':' ∉ s) : splitColonLoop s [] = [s] := by
  rw [splitColonLoop_eq, if_neg h]; rfl

theorem splitColon_some {a b : Str} (h : ':' ∉ a) : splitColonLoop (a ++ ':' :: b) [] = a :: splitColonLoop b [] := by
  rw [splitColonLoop_eq, if_pos (by simp)]
  have h1 : hostPart (a ++ ':' :: b) = a := by
    unfold hostPart
    rw [List.takeWhile_append_of_pos (by intro x hx; simp; rintro rfl; exact h hx)]
    simp
  have h2 : (a ++ ':' :: b).dropWhile (fun c => decide (c ≠ ':')) = ':' :: b := by
    rw [List.dropWhile_append_of_pos (by intro x hx; simp; rintro rfl; exact h hx)]
    simp
  rw [h1, h2]; rfl

theorem parseMapRule_host {rule host image : Str} (h : parseMapRule rule = .ok (host, image)) : host = hostPart rule := by
  unfold parseMapRule at h
  by_cases hc : ':' ∈ rule
  · rw [splitColonLoop_eq, if_pos hc] at h
    split at h
    · cases h
    · next he => rw [List.cons.injEq] at he; split at h <;> cases h; exact he.1.symm
    · next he => rw [List.cons.injEq] at he; cases h; exact he.1.symm
  · rw [splitColon_none hc] at h
    simp only at h
    split at h
    · cases h
      unfold hostPart
      rw [show rule = rule ++ [] by simp, List.takeWhile_append_of_pos (by intro x hx; simp; rintro rfl; exact hc hx)]
      simp
    · cases h

theorem parseMapRules_hosts : ∀ {rs : List Str} {ps : List (Str × Str)}, parseMapRules rs = .ok ps →
    ps.map Prod.fst = rs.map hostPart := by
  intro rs
  induction rs with
  | nil => intro ps h; cases h; rfl
  | cons r rs ih =>
    intro ps h
    simp only [parseMapRules] at h
    obtain ⟨⟨a, b⟩, h1, h⟩ := Res.bind_eq_ok.1 h
    obtain ⟨ps', h2, h⟩ := Res.bind_eq_ok.1 h
    cases h
    rw [List.map_cons, List.map_cons, ih h2, parseMapRule_host h1]

theorem parseMapRules_written : ∀ {pairs : List (Str × Str)} {rs : List Str},
    AllWritten pairs rs → (∀ p ∈ pairs, ':' ∉ p.1 ∧ ':' ∉ p.2) → parseMapRules rs = .ok pairs := by
  intro pairs
  induction pairs with
  | nil =>
    intro rs h _
    cases rs with
    | nil => rfl
    | cons _ _ => cases h
  | cons p ps ih =>
    intro rs h hn
    cases rs with
    | nil => cases h
    | cons r rs =>
    obtain ⟨h1, h'⟩ := h
    have := ih h' (fun x hx => hn x (by simp [hx]))
    obtain ⟨a, b⟩ := p
    obtain ⟨n1, n2⟩ := hn (a, b) (by simp)
    have hp : parseMapRule r = .ok (a, b) := by
      unfold parseMapRule
      rcases h1 with rfl | ⟨h1, h2, rfl⟩
      · rw [splitColon_some n1, splitColon_none n2]
      · simp only at h2
        subst h2
        rw [splitColon_none n1]
        have h1 : r.head? = some '!' := h1
        simp only [h1, if_true]
    simp only [parseMapRules, hp, this, Res.ok_bind]
    rfl

theorem parseMapRule_bare {r : Str} (h1 : ':' ∉ r) (h2 : r.head? ≠ some '!') : parseMapRule r = .err .other := by
  unfold parseMapRule
  rw [splitColon_none h1]
  simp only [if_neg h2]

theorem parseMapRules_bare : ∀ {rs : List Str} {r : Str}, r ∈ rs → ':' ∉ r → r.head? ≠ some '!' → ∀ ps,
    parseMapRules rs ≠ .ok ps := by
  intro rs
  induction rs with
  | nil => intro r h; cases h
  | cons x xs ih =>
    intro r h h1 h2 ps he
    simp only [parseMapRules] at he
    obtain ⟨p, e1, he⟩ := Res.bind_eq_ok.1 he
    obtain ⟨ps', e2, _⟩ := Res.bind_eq_ok.1 he
    rcases List.mem_cons.1 h with rfl | h
    · rw [parseMapRule_bare h1 h2] at e1; cases e1
    · exact ih h h1 h2 _ e2

/-! ## Specifications -/

theorem tableInsert_new : ∀ {table : List (Str × Option Str)} {key : Str} {value : Option Str}, key ∉ table.map Prod.fst →
    tableInsert key value table = table ++ [(key, value)] := by
  intro table
  induction table with
  | nil => intro key value _; rfl
  | cons x xs ih =>
    obtain ⟨k, v⟩ := x
    intro key value h
    simp only [List.map_cons, List.mem_cons, not_or] at h
    unfold tableInsert
    rw [if_neg (fun he => h.1 he.symm), ih h.2]; rfl

theorem specTable_ok : ∀ {rs : List Str} {ps : List (Str × Str)} {table : List (Str × Option Str)},
    parseMapRules rs = .ok ps → (rs.map hostPart).Nodup → (∀ r ∈ rs, hostPart r ∉ table.map Prod.fst) →
    specTable rs table = .ok (table ++ ps.map (fun p => (p.1, some p.2))) := by
  intro rs
  induction rs with
  | nil => intro ps table h _ _; cases h; simp [specTable]
  | cons r rs ih =>
    intro ps table h hn hd
    simp only [parseMapRules] at h
    obtain ⟨⟨a, b⟩, h1, h⟩ := Res.bind_eq_ok.1 h
    obtain ⟨ps', h2, h⟩ := Res.bind_eq_ok.1 h
    cases h
    simp only [specTable, h1, Res.ok_bind]
    rw [List.map_cons, List.nodup_cons] at hn
    have ha := parseMapRule_host h1
    rw [tableInsert_new (by rw [ha]; exact hd r (by simp)), ih h2 hn.2]
    · simp
    · intro x hx
      rw [List.map_append, List.mem_append, not_or]
      refine ⟨hd x (by simp [hx]), ?_⟩
      simp only [List.map_cons, List.map_nil, List.mem_singleton]
      intro he
      rw [ha] at he
      exact hn.1 (he ▸ List.mem_map_of_mem hx)

theorem specTable_parse : ∀ {rs : List Str} {table table' : List (Str × Option Str)}, specTable rs table = .ok table' →
    ∃ ps, parseMapRules rs = .ok ps := by
  intro rs
  induction rs with
  | nil => intro _ _ _; exact ⟨[], rfl⟩
  | cons r rs ih =>
    intro table table' h
    simp only [specTable] at h
    obtain ⟨⟨a, b⟩, h1, h⟩ := Res.bind_eq_ok.1 h
    obtain ⟨ps, h2⟩ := ih h
    exact ⟨(a, b) :: ps, by simp only [parseMapRules, h1, h2, Res.ok_bind]; rfl⟩

theorem parse_specTable : ∀ {rs : List Str} {ps : List (Str × Str)}, parseMapRules rs = .ok ps → ∀ table,
    ∃ table', specTable rs table = .ok table' := by
  intro rs
  induction rs with
  | nil => intro _ _ table; exact ⟨table, rfl⟩
  | cons r rs ih =>
    intro ps h table
    simp only [parseMapRules] at h
    obtain ⟨⟨a, b⟩, h1, h⟩ := Res.bind_eq_ok.1 h
    obtain ⟨ps', h2, h⟩ := Res.bind_eq_ok.1 h
    obtain ⟨t', ht⟩ := ih h2 (tableInsert a (some b) table)
    exact ⟨t', by simp only [specTable, h1, Res.ok_bind]; exact ht⟩

theorem specRules_strings : ∀ ps : List (Str × Str), specRules (ps.map (fun p => (p.1, some p.2))) = .ok ps := by
  intro ps
  induction ps with
  | nil => rfl
  | cons p ps ih => simp only [List.map_cons, specRules, ih, Res.ok_bind]; rfl

/-! ## The plan -/

theorem splitExt_join (name : Str) : (splitExt name).1 ++ (match (splitExt name).2 with
    | none => []
    | some e => '.' :: e) = name := by
  unfold splitExt
  split
  · simp
  · have h := List.takeWhile_append_dropWhile (p := fun c => decide (c ≠ '.')) (l := name.reverse)
    cases hd : name.reverse.dropWhile (fun c => decide (c ≠ '.')) with
    | nil => simp
    | cons x before =>
      simp only
      split
      · simp
      · simp only
        have hx : x = '.' := by
          have := List.head?_dropWhile_not (fun c => decide (c ≠ '.')) name.reverse
          rw [hd] at this
          simpa using this
        rw [hd, hx] at h
        have := congrArg List.reverse h
        rw [List.reverse_append, List.reverse_reverse] at this
        conv => rhs; rw [← this]
        simp

theorem withExtension_length (name ext : Str) (h : ext ≠ []) :
    (withExtension name ext true).length = name.length + 1 + ext.length := by
  have hj := congrArg List.length (splitExt_join name)
  unfold withExtension stdWithExtension
  simp only [if_true]
  cases hs : (splitExt name).2 with
  | none =>
    rw [hs] at hj
    simp only [List.append_nil] at hj
    simp only [if_neg h, List.length_append, List.length_cons]; omega
  | some e =>
    rw [hs] at hj
    simp only [List.length_append, List.length_cons] at hj
    simp only
    rw [if_neg (by simp)]
    simp only [List.length_append, List.length_cons]; omega

/-- The default output is not in the source. -/
theorem default_outside {d q : HostPath} {ext : Str} (h : ext ≠ []) (hd : d ≠ []) (hq : d <+: q) :
    q ≠ onFileName (fun n => withExtension n ext true) d := by
  intro he
  obtain ⟨p, c, rfl⟩ : ∃ p c, d = p ++ [c] := ⟨d.dropLast, d.getLast hd, (List.dropLast_concat_getLast hd).symm⟩
  have h1 : onFileName (fun n => withExtension n ext true) (p ++ [c]) = p ++ [withExtension c ext true] := by
    unfold onFileName; simp
  rw [h1] at he
  subst he
  have h2 := hq.eq_of_length (by simp)
  have h3 := (List.append_inj' h2 rfl).2
  simp only [List.cons.injEq, and_true] at h3
  have := withExtension_length c ext h
  rw [← h3] at this
  omega

theorem buildPlan_ok {parse : Bytes → Option ImageSpec} {fs : HostFs} {a : BuildArgs} {plan : BuildPlan}
    (h : buildPlan parse fs a = .ok plan) : MappedDir fs a plan.source ∧ (∀ p, a.image = some p → plan.image = .ok p) ∧
      (a.image = none → NoSpecOutput parse fs a →
        plan.image =
          .ok (onFileName (fun n => withExtension n ['x', 'i', 's', 'o', '.', 'i', 's', 'o'] true) plan.source)) := by
  unfold buildPlan at h
  obtain ⟨⟨sp, src⟩, h1, h⟩ := Res.bind_eq_ok.1 h
  simp only at h
  obtain ⟨spec, h2, h⟩ := Res.bind_eq_ok.1 h
  obtain ⟨rules, h3, h⟩ := Res.bind_eq_ok.1 h
  cases h
  simp only
  have hsp : MappedDir fs a src ∧ SpecFile fs a sp := by
    unfold buildPaths at h1
    split at h1
    · next hd =>
      cases h1
      refine ⟨.inl ⟨hd, rfl⟩, ?_⟩
      cases hs : a.spec with
      | none => exact .inr (.inl ⟨hs, hd, rfl⟩)
      | some x => exact .inl hs
    · next hd =>
      split at h1
      · cases h1
      · next h0 =>
        cases h1
        refine ⟨.inr ⟨hd, a.source.getLast h0, (List.dropLast_concat_getLast h0).symm⟩, ?_⟩
        cases hs : a.spec with
        | none => exact .inr (.inr ⟨hs, hd, rfl⟩)
        | some x => exact .inl hs
  refine ⟨hsp.1, ?_, ?_⟩
  · intro p hp
    unfold buildOutput
    rw [hp]
  · intro hi hno
    unfold buildOutput
    rw [hi]
    have hn : spec.bind ImageSpec.output = none := by
      unfold buildSpec at h2
      split at h2
      · next hc =>
        split at h2
        · next b hb =>
          split at h2
          · next s hs => cases h2; exact hno hc.2 _ _ _ hsp.2 hb hs
          · cases h2
        · cases h2
      · cases h2; rfl
    rw [hn]

end Xdvdfs
