import Verif.Spec.RemapOrder
import Verif.Proof.Remap

/-!
# Proofs about the order in which the overlay is built
-/

namespace Xdvdfs.RemapOrder
open Xdvdfs Spec Trie

/-- What becomes of one match. -/
def hop (rules : List BuiltRule) (x : Path × FileEntry × Path) : Option (Path × FileEntry × Path) :=
  match pathSuffix x.1 x.2.2 with
  | .ok s => match evalRules x.2.2 s rules none with
    | .ok (some q) => some (x.1, x.2.1, q)
    | _ => none
  | _ => none

theorem hop_some {rules : List BuiltRule} {x y : Path × FileEntry × Path} (h : hop rules x = some y) :
    ∃ s, pathSuffix x.1 x.2.2 = .ok s ∧ evalRules x.2.2 s rules none = .ok (some y.2.2) ∧ y.1 = x.1 ∧ y.2.1 = x.2.1 := by
  unfold hop at h
  split at h
  · rename_i s hs
    split at h
    · rename_i q hq
      cases h
      exact ⟨s, hs, hq, rfl, rfl⟩
    · cases h
  · cases h

theorem insertMatches_order (rules : List BuiltRule) : ∀ {ms : List (Path × FileEntry × Path)} {t t' : Trie MapEntry},
    WF t → insertMatches rules ms t = .ok t' → WF t' ∧
      (∀ p, p ≠ [] → look p t' = (look p t).or (histLook (ms.filterMap (hop rules)) p)) ∧
      ∀ x ∈ ms, ∃ s o, pathSuffix x.1 x.2.2 = .ok s ∧ evalRules x.2.2 s rules none = .ok o := by
  intro ms
  induction ms with
  | nil =>
    intro t t' ht h
    cases h
    exact ⟨ht, by simp [histLook], by simp⟩
  | cons x ms ih =>
    obtain ⟨path, entry, pre⟩ := x
    intro t t' ht h
    simp only [insertMatches] at h
    obtain ⟨suffix, h1, h2⟩ := Res.bind_eq_ok.1 h
    obtain ⟨o, h3, h4⟩ := Res.bind_eq_ok.1 h2
    cases o with
    | none =>
      simp only at h4
      obtain ⟨i1, i2, i3⟩ := ih ht h4
      have hh : hop rules (path, entry, pre) = none := by simp only [hop, h1, h3]
      refine ⟨i1, ?_, ?_⟩
      · intro p hp
        rw [i2 p hp, List.filterMap_cons, hh]
      · intro x hx
        rcases List.mem_cons.1 hx with rfl | hx
        · exact ⟨suffix, none, h1, h3⟩
        · exact i3 x hx
    | some q =>
      simp only at h4
      obtain ⟨t1, k1, k2⟩ := Res.bind_eq_ok.1 h4
      obtain ⟨j1, j2, j3⟩ := insertChain_spec path entry ht k1
      obtain ⟨i1, i2, i3⟩ := ih j2 k2
      have hh : hop rules (path, entry, pre) = some (path, entry, q) := by simp only [hop, h1, h3]
      refine ⟨i1, ?_, ?_⟩
      · intro p hp
        rw [i2 p hp, j3 p hp, List.filterMap_cons, hh]
        simp only
        rw [histLook_cons, Option.or_assoc]
      · intro x hx
        rcases List.mem_cons.1 hx with rfl | hx
        · exact ⟨suffix, some q, h1, h3⟩
        · exact i3 x hx

open Classical in
/-- The longest matching part of a path. -/
noncomputable def longest (rules : List BuiltRule) (p : Path) : Option Path :=
  if h : ∃ o, IsLongest rules p o then choose h else none

theorem longest_eq {rules : List BuiltRule} {p : Path} {o : Option Path} (h : IsLongest rules p o) : longest rules p = o := by
  have hx : ∃ o, IsLongest rules p o := ⟨o, h⟩
  unfold longest
  rw [dif_pos hx]
  exact isLongest_unique (Classical.choose_spec hx) h

/-- An entry with the longest matching part of its path. -/
noncomputable def found (rules : List BuiltRule) (y : Path × FileEntry) : Option (Path × FileEntry × Path) :=
  (longest rules y.1).map (fun m => (y.1, y.2, m))

theorem entries_found {rules : List BuiltRule} {d : Path} {o : Option Path} (h : IsLongest rules d o) (l : List FileEntry) :
    (remapEntries rules d o l).2 = (l.map (fun e => (d ++ [e.name], e))).filterMap (found rules) ∧
      (remapEntries rules d o l).1.map Prod.fst = (l.filter (·.isDir)).map (fun e => d ++ [e.name]) := by
  induction l with
  | nil => exact ⟨rfl, rfl⟩
  | cons e es ih =>
    obtain ⟨i1, i2⟩ := ih
    rw [remapEntries_cons]
    have hl := longest_eq (isLongest_step h e.name)
    simp only
    constructor
    · rw [List.map_cons, List.filterMap_cons, found]
      simp only [hl]
      generalize (if anyMatch rules (d ++ [e.name]) = true then some (d ++ [e.name]) else o) = m
      cases m with
      | none => exact i1
      | some m => simp [i1]
    · rw [List.filter_cons]
      cases hd : e.isDir
      · simpa [hd] using i2
      · simpa [hd] using i2

theorem walk_order {rules : List BuiltRule} {readDir : Path → Res (List FileEntry)} :
    ∀ {fuel : Nat} {stack : List (Path × Option Path)} {acc ms : List (Path × FileEntry × Path)},
      remapWalk rules readDir fuel stack acc = .ok ms → (∀ x ∈ stack, IsLongest rules x.1 x.2) →
      ∃ all, HostOrder readDir (stack.map Prod.fst) all ∧ ms = acc ++ all.filterMap (found rules) := by
  intro fuel
  induction fuel with
  | zero =>
    intro stack acc ms h hs
    cases stack with
    | nil => cases h; exact ⟨[], .done, by simp⟩
    | cons x xs => cases h
  | succ fuel ih =>
    intro stack acc ms h hs
    cases stack with
    | nil => cases h; exact ⟨[], .done, by simp⟩
    | cons x xs =>
      obtain ⟨d, o⟩ := x
      simp only [remapWalk] at h
      obtain ⟨l, h1, h2⟩ := Res.bind_eq_ok.1 h
      have hlong := hs (d, o) (by simp)
      obtain ⟨e1, e2⟩ := entries_found hlong l
      obtain ⟨all, a1, a2⟩ := ih h2 (by
        intro x hx
        rcases List.mem_append.1 hx with hx | hx
        · rw [List.mem_reverse] at hx
          obtain ⟨e, _, _, rfl⟩ := mem_remapEntries_dirs.1 hx
          exact isLongest_step hlong _
        · exact hs x (by simp [hx]))
      rw [List.map_append, List.map_reverse, e2] at a1
      refine ⟨_, .dir h1 a1, ?_⟩
      rw [a2, e1, List.filterMap_append, List.append_assoc]

theorem walked_entry {readDir : Path → Res (List FileEntry)} {dirs : List Path} {all : List (Path × FileEntry)}
    (h : HostOrder readDir dirs all) (hd : ∀ d ∈ dirs, DirOf readDir d) : ∀ y ∈ all, ∃ d, EntryIn readDir d y.2 ∧ y.1 = d ++ [y.2.name] := by
  induction h with
  | done => simp
  | @dir d l rest all h1 h2 ih =>
    intro y hy
    have hdd := hd d (by simp)
    rcases List.mem_append.1 hy with hy | hy
    · obtain ⟨e, he, rfl⟩ := List.mem_map.1 hy
      exact ⟨d, ⟨hdd, l, h1, he⟩, rfl⟩
    · refine ih ?_ y hy
      intro d' hd'
      rcases List.mem_append.1 hd' with hd' | hd'
      · rw [List.mem_reverse] at hd'
        obtain ⟨e, he, rfl⟩ := List.mem_map.1 hd'
        obtain ⟨k1, k2⟩ := List.mem_filter.1 he
        exact .sub hdd h1 k1 k2
      · exact hd d' (by simp [hd'])

theorem find_filterMap {α β : Type} {g : α → Option β} {p : β → Bool} : ∀ {all : List α} {x : β},
    (all.filterMap g).find? p = some x ↔ ∃ before y after, all = before ++ y :: after ∧ g y = some x ∧ p x = true ∧
      ∀ z ∈ before, ∀ w, g z = some w → p w = false := by
  intro all
  induction all with
  | nil => intro x; simp
  | cons a all ih =>
    intro x
    rw [List.filterMap_cons]
    cases hg : g a with
    | none =>
      simp only
      rw [ih]
      constructor
      · rintro ⟨b, y, c, rfl, h1, h2, h3⟩
        refine ⟨a :: b, y, c, rfl, h1, h2, ?_⟩
        intro z hz w hw
        rcases List.mem_cons.1 hz with rfl | hz
        · rw [hg] at hw; cases hw
        · exact h3 z hz w hw
      · rintro ⟨b, y, c, h0, h1, h2, h3⟩
        cases b with
        | nil => cases h0; rw [hg] at h1; cases h1
        | cons b bs =>
          cases h0
          exact ⟨bs, y, c, rfl, h1, h2, fun z hz => h3 z (by simp [hz])⟩
    | some w =>
      simp only
      rw [List.find?_cons]
      cases hp : p w with
      | true =>
        simp only
        constructor
        · rintro ⟨⟩
          exact ⟨[], a, all, rfl, hg, hp, by simp⟩
        · rintro ⟨b, y, c, h0, h1, h2, h3⟩
          cases b with
          | nil => cases h0; rw [hg] at h1; cases h1; rfl
          | cons b bs =>
            cases h0
            have := h3 a (by simp) w hg
            rw [hp] at this; cases this
      | false =>
        simp only
        rw [ih]
        constructor
        · rintro ⟨b, y, c, rfl, h1, h2, h3⟩
          refine ⟨a :: b, y, c, rfl, h1, h2, ?_⟩
          intro z hz v hv
          rcases List.mem_cons.1 hz with rfl | hz
          · rw [hg] at hv; cases hv; exact hp
          · exact h3 z hz v hv
        · rintro ⟨b, y, c, h0, h1, h2, h3⟩
          cases b with
          | nil => cases h0; rw [hg] at h1; cases h1; rw [hp] at h2; cases h2
          | cons b bs =>
            cases h0
            exact ⟨bs, y, c, rfl, h1, h2, fun z hz => h3 z (by simp [hz])⟩

/-- What is recorded at a place comes from the first entry that is mapped there or below. -/
theorem look_first {G : GlobEngine} {cfg : List Rule} {readDir : Path → Res (List FileEntry)} {fuel : Nat}
    {t : Trie MapEntry} (h : remapNew G cfg readDir fuel = .ok t) : WF t ∧ ∃ all, HostOrder readDir [[]] all ∧
      ∀ p, p ≠ [] → ∀ m, look p t = some m ↔
        ∃ path e q, TakesFirst G cfg all p path e q ∧ m = chainVal path e q p := by
  unfold remapNew at h
  obtain ⟨rules, h1, h2⟩ := Res.bind_eq_ok.1 h
  obtain ⟨ms, h3, h4⟩ := Res.bind_eq_ok.1 h2
  obtain ⟨hcfg, hb⟩ := buildRules_ok h1
  have hw := remapWalk_spec h3
  have hroot : IsLongest rules [] none := by
    intro m hm h0
    exact absurd (List.prefix_nil.1 hm) h0
  obtain ⟨all, a1, a2⟩ := walk_order h3 (by intro x hx; rw [List.mem_singleton] at hx; subst hx; exact hroot)
  rw [List.nil_append] at a2
  obtain ⟨i1, i2, i3⟩ := insertMatches_order rules Trie.wf_empty h4
  refine ⟨i1, all, a1, ?_⟩
  have hg : ∀ y ∈ all, ∀ x, ((found rules y).bind (hop rules)) = some x ↔
      x.1 = y.1 ∧ x.2.1 = y.2 ∧ MapsTo G cfg y.1 x.2.2 := by
    intro y hy x
    obtain ⟨d, hd, hyd⟩ := walked_entry a1 (by intro d hd; simp only [List.map_cons, List.map_nil, List.mem_singleton] at hd; subst hd; exact .root) y hy
    constructor
    · intro hx
      obtain ⟨z, hz, hx⟩ := Option.bind_eq_some_iff.1 hx
      have hzm : z ∈ ms := by rw [a2]; exact List.mem_filterMap.2 ⟨y, hy, hz⟩
      unfold found at hz
      obtain ⟨pre, hpre, rfl⟩ := Option.map_eq_some_iff.1 hz
      obtain ⟨s, k1, k2, k3, k4⟩ := hop_some hx
      refine ⟨k3, k4, ?_⟩
      obtain ⟨_, _, _, e3⟩ := (hw _ _ _).1 hzm
      obtain ⟨s', hs'⟩ := id e3.1
      have e3' := e3
      rw [isLongest_matchPoint hb, hcfg] at e3'
      simp only at k1 k2
      rw [← hs', pathSuffix_append] at k1
      cases k1
      obtain ⟨r, caps, f1, f2, f3⟩ := evalRules_spec _ rules rfl hb _ k2
      rw [hcfg] at f1
      exact ⟨pre, s, r, caps, hs'.symm, e3', f1, f2, f3⟩
    · rintro ⟨x1, x2, hm⟩
      obtain ⟨m, s, r, caps, k1, k2, k3, k4, k5⟩ := id hm
      have hl : IsLongest rules y.1 (some m) := by rw [isLongest_matchPoint hb, hcfg]; exact k2
      have hf : found rules y = some (y.1, y.2, m) := by unfold found; rw [longest_eq hl]; rfl
      have hzm : (y.1, y.2, m) ∈ ms := by rw [a2]; exact List.mem_filterMap.2 ⟨y, hy, hf⟩
      obtain ⟨s', o, j1, j2⟩ := i3 _ hzm
      simp only at j1 j2
      have ho := evalRules_spec _ rules rfl hb _ j2
      cases o with
      | none =>
        rw [hcfg] at ho
        exact absurd k3 (unselected_not ho r)
      | some q =>
        have hss : s' = s := by
          rw [k1, pathSuffix_append] at j1
          cases j1; rfl
        subst hss
        obtain ⟨r', caps', f1, f2, f3⟩ := ho
        rw [hcfg] at f1
        have hq : MapsTo G cfg y.1 q := ⟨m, s', r', caps', k1, k2, f1, f2, f3⟩
        have := mapsTo_unique hm hq
        rw [hf]
        obtain ⟨x1', x2', x3'⟩ := x
        simp only at x1 x2 this
        subst x1 x2 this
        simp only [Option.bind_some, hop, j1, j2]
  have hhist : ms.filterMap (hop rules) = all.filterMap (fun y => (found rules y).bind (hop rules)) := by
    rw [a2, List.filterMap_filterMap]
  intro p hp m
  rw [i2 p hp, Trie.look_empty, Option.none_or, hhist, histLook, Option.map_eq_some_iff]
  constructor
  · rintro ⟨x, hx, rfl⟩
    obtain ⟨b, y, c, rfl, k1, k2, k3⟩ := find_filterMap.1 hx
    obtain ⟨g1, g2, g3⟩ := (hg y (by simp) x).1 k1
    obtain ⟨y1, y2⟩ := y
    obtain ⟨x1, x2, x3⟩ := x
    simp only at g1 g2 g3
    subst g1 g2
    refine ⟨x1, x2, x3, ⟨b, c, rfl, g3, of_decide_eq_true k2, ?_⟩, rfl⟩
    intro z hz q hq hpq
    have := k3 z hz (z.1, z.2, q) ((hg z (by simp [hz]) _).2 ⟨rfl, rfl, hq⟩)
    simp only [decide_eq_false_iff_not] at this
    exact this hpq
  · rintro ⟨path, e, q, ⟨b, c, rfl, k1, k2, k3⟩, rfl⟩
    refine ⟨(path, e, q), find_filterMap.2 ⟨b, (path, e), c, rfl, (hg _ (by simp) _).2 ⟨rfl, rfl, k1⟩, by simpa using k2, ?_⟩, rfl⟩
    intro z hz w hw
    obtain ⟨_, _, g3⟩ := (hg z (by simp [hz]) w).1 hw
    simpa using k3 z hz _ g3

/-- If something is mapped to a place or below, then something is first there. -/
theorem takes_exists {G : GlobEngine} {cfg : List Rule} {p : Path} : ∀ {all : List (Path × FileEntry)} {x : Path × FileEntry} {q : Path},
    x ∈ all → MapsTo G cfg x.1 q → p <+: q → ∃ path e q', TakesFirst G cfg all p path e q' := by
  intro all
  induction all with
  | nil => intro x q h; cases h
  | cons y all ih =>
    intro x q hx hm hp
    rcases Classical.em (∃ q', MapsTo G cfg y.1 q' ∧ p <+: q') with ⟨q', h1, h2⟩ | hno
    · exact ⟨y.1, y.2, q', [], all, rfl, h1, h2, by simp⟩
    · rcases List.mem_cons.1 hx with rfl | hx
      · exact absurd ⟨q, hm, hp⟩ hno
      · obtain ⟨path, e, q', b, c, rfl, k1, k2, k3⟩ := ih hx hm hp
        refine ⟨path, e, q', y :: b, c, rfl, k1, k2, ?_⟩
        intro z hz w hw
        rcases List.mem_cons.1 hz with rfl | hz
        · exact fun h => hno ⟨w, hw, h⟩
        · exact k3 z hz w hw

end Xdvdfs.RemapOrder
