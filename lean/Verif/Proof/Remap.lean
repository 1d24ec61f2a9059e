import Verif.Proof.RemapRules
import Verif.Proof.Dfs
import Verif.Proof.ImgFs

/-!
# Proofs about the remapping overlay
-/

namespace Xdvdfs

open Spec

/-! ## The walk of the host -/

def walkStep (rules : List BuiltRule) (readDir : Path → Res (List FileEntry)) (x : Path × Option Path) :
    Res (List (Path × Option Path) × List (Path × FileEntry × Path)) := do
  let listing ← readDir x.1
  pure ((remapEntries rules x.1 x.2 listing).1.reverse, (remapEntries rules x.1 x.2 listing).2)

theorem remapWalk_dfs (rules : List BuiltRule) (readDir : Path → Res (List FileEntry)) :
    ∀ (fuel : Nat) (stack : List (Path × Option Path)) (acc : List (Path × FileEntry × Path)),
    remapWalk rules readDir fuel stack acc = dfs (walkStep rules readDir) fuel stack acc := by
  intro fuel
  induction fuel with
  | zero => intro stack acc; cases stack <;> rfl
  | succ fuel ih =>
    intro stack acc
    cases stack with
    | nil => rfl
    | cons x stack =>
      obtain ⟨dir, pre⟩ := x
      simp only [remapWalk, dfs, walkStep]
      cases readDir dir with
      | ok l => simp only [Res.ok_bind, Res.pure_eq]; exact ih _ _
      | err e => rfl
      | panic => rfl
      | hang => rfl

/-- The longest matching initial part of a path. -/
def IsLongest (rules : List BuiltRule) (p : Path) : Option Path → Prop
  | none => ∀ m, m <+: p → m ≠ [] → anyMatch rules m = false
  | some m => m <+: p ∧ m ≠ [] ∧ anyMatch rules m = true ∧ ∀ m', m' <+: p → m.length < m'.length → anyMatch rules m' = false

theorem prefix_snoc {m p : Path} {n : Str} : m <+: p ++ [n] ↔ m = p ++ [n] ∨ m <+: p := by
  exact List.prefix_concat_iff

theorem isLongest_step {rules : List BuiltRule} {p : Path} {o : Option Path} (h : IsLongest rules p o) (n : Str) :
    IsLongest rules (p ++ [n]) (if anyMatch rules (p ++ [n]) then some (p ++ [n]) else o) := by
  cases ha : anyMatch rules (p ++ [n]) with
  | true =>
    refine ⟨List.prefix_refl _, by simp, ha, ?_⟩
    intro m' hm' hl
    have := hm'.length_le
    omega
  | false =>
    simp only [Bool.false_eq_true, if_false]
    cases o with
    | none =>
      intro m hm h0
      rcases prefix_snoc.1 hm with rfl | hm
      · exact ha
      · exact h m hm h0
    | some m =>
      obtain ⟨h1, h2, h3, h4⟩ := h
      refine ⟨h1.trans (List.prefix_append _ _), h2, h3, ?_⟩
      intro m' hm' hl
      rcases prefix_snoc.1 hm' with rfl | hm'
      · exact ha
      · exact h4 m' hm' hl

theorem isLongest_unique {rules : List BuiltRule} {p : Path} {o o' : Option Path} (h : IsLongest rules p o)
    (h' : IsLongest rules p o') : o = o' := by
  cases o with
  | none =>
    cases o' with
    | none => rfl
    | some m => obtain ⟨h1, h2, h3, _⟩ := h'; rw [h m h1 h2] at h3; cases h3
  | some m =>
    obtain ⟨h1, h2, h3, h4⟩ := h
    cases o' with
    | none => rw [h' m h1 h2] at h3; cases h3
    | some m' =>
      obtain ⟨k1, k2, k3, k4⟩ := h'
      have e : m.length = m'.length := by
        rcases Nat.lt_trichotomy m.length m'.length with hl | hl | hl
        · rw [h4 m' k1 hl] at k3; cases k3
        · exact hl
        · rw [k4 m h1 hl] at h3; cases h3
      rw [(List.prefix_of_prefix_length_le h1 k1 (by omega)).eq_of_length e]

theorem remapEntries_cons (rules : List BuiltRule) (dir : Path) (pre : Option Path) (e : FileEntry) (es : List FileEntry) :
    remapEntries rules dir pre (e :: es) =
      (if e.isDir then (dir ++ [e.name], if anyMatch rules (dir ++ [e.name]) then some (dir ++ [e.name]) else pre) ::
          (remapEntries rules dir pre es).1 else (remapEntries rules dir pre es).1,
        match (if anyMatch rules (dir ++ [e.name]) then some (dir ++ [e.name]) else pre) with
        | some p => (dir ++ [e.name], e, p) :: (remapEntries rules dir pre es).2
        | none => (remapEntries rules dir pre es).2) := rfl

theorem mem_remapEntries_dirs {rules : List BuiltRule} {dir : Path} {pre : Option Path} {x : Path × Option Path} :
    ∀ {l : List FileEntry}, x ∈ (remapEntries rules dir pre l).1 ↔
      ∃ e ∈ l, e.isDir = true ∧ x = (dir ++ [e.name], if anyMatch rules (dir ++ [e.name]) then some (dir ++ [e.name]) else pre) := by
  intro l
  induction l with
  | nil => simp [remapEntries]
  | cons e es ih =>
    rw [remapEntries_cons]
    simp only
    split
    · rename_i hd
      rw [List.mem_cons, ih]
      constructor
      · rintro (h | ⟨e', h1, h2, h3⟩)
        · exact ⟨e, by simp, hd, h⟩
        · exact ⟨e', by simp [h1], h2, h3⟩
      · rintro ⟨e', h1, h2, h3⟩
        rcases List.mem_cons.1 h1 with rfl | h1
        · exact .inl h3
        · exact .inr ⟨e', h1, h2, h3⟩
    · rename_i hd
      rw [ih]
      constructor
      · rintro ⟨e', h1, h2, h3⟩
        exact ⟨e', by simp [h1], h2, h3⟩
      · rintro ⟨e', h1, h2, h3⟩
        rcases List.mem_cons.1 h1 with rfl | h1
        · exact absurd h2 hd
        · exact ⟨e', h1, h2, h3⟩

theorem mem_remapEntries_ms {rules : List BuiltRule} {dir : Path} {pre : Option Path} {x : Path × FileEntry × Path} :
    ∀ {l : List FileEntry}, x ∈ (remapEntries rules dir pre l).2 ↔
      ∃ e ∈ l, ∃ m, (if anyMatch rules (dir ++ [e.name]) then some (dir ++ [e.name]) else pre) = some m ∧
        x = (dir ++ [e.name], e, m) := by
  intro l
  induction l with
  | nil => simp [remapEntries]
  | cons e es ih =>
    rw [remapEntries_cons]
    simp only
    generalize hp : (if anyMatch rules (dir ++ [e.name]) = true then some (dir ++ [e.name]) else pre) = o
    cases o with
    | none =>
      simp only
      rw [ih]
      constructor
      · rintro ⟨e', h1, h2⟩
        exact ⟨e', by simp [h1], h2⟩
      · rintro ⟨e', h1, m, h2, h3⟩
        rcases List.mem_cons.1 h1 with rfl | h1
        · rw [hp] at h2; cases h2
        · exact ⟨e', h1, m, h2, h3⟩
    | some m =>
      simp only
      rw [List.mem_cons, ih]
      constructor
      · rintro (h | ⟨e', h1, h2⟩)
        · exact ⟨e, by simp, m, hp, h⟩
        · exact ⟨e', by simp [h1], h2⟩
      · rintro ⟨e', h1, m', h2, h3⟩
        rcases List.mem_cons.1 h1 with rfl | h1
        · rw [hp] at h2; cases h2; exact .inl h3
        · exact .inr ⟨e', h1, m', h2, h3⟩

theorem walkStep_ok {rules : List BuiltRule} {readDir : Path → Res (List FileEntry)} {x : Path × Option Path}
    {cs : List (Path × Option Path)} {os : List (Path × FileEntry × Path)} :
    walkStep rules readDir x = .ok (cs, os) ↔
      ∃ l, readDir x.1 = .ok l ∧ cs = (remapEntries rules x.1 x.2 l).1.reverse ∧ os = (remapEntries rules x.1 x.2 l).2 := by
  unfold walkStep
  rw [Res.bind_eq_ok]
  constructor
  · rintro ⟨l, h1, h2⟩
    simp only [Res.pure_eq, Res.ok.injEq, Prod.mk.injEq] at h2
    exact ⟨l, h1, h2.1.symm, h2.2.symm⟩
  · rintro ⟨l, h1, rfl, rfl⟩
    exact ⟨l, h1, rfl⟩

/-- Nodes of the walk are directories of the host with their longest match. -/
theorem reach_walk {rules : List BuiltRule} {readDir : Path → Res (List FileEntry)} {x y : Path × Option Path}
    (h : Reach (walkStep rules readDir) x y) (hd : DirOf readDir x.1) (hl : IsLongest rules x.1 x.2) :
    DirOf readDir y.1 ∧ IsLongest rules y.1 y.2 := by
  induction h with
  | refl n => exact ⟨hd, hl⟩
  | step h1 h2 _ ih =>
    obtain ⟨l, k1, k2, _⟩ := walkStep_ok.1 h1
    rw [k2, List.mem_reverse] at h2
    obtain ⟨e, e1, e2, e3⟩ := mem_remapEntries_dirs.1 h2
    subst e3
    exact ih (.sub hd k1 e1 e2) (isLongest_step hl _)

/-- Every directory of the host is a node of a successful walk. -/
theorem dir_reached {rules : List BuiltRule} {readDir : Path → Res (List FileEntry)} {d : Path} (h : DirOf readDir d) :
    ∃ o, Reach (walkStep rules readDir) ([], none) (d, o) := by
  induction h with
  | root => exact ⟨none, .refl _⟩
  | @sub p l e _ h1 h2 h3 ih =>
    obtain ⟨o, ho⟩ := ih
    have hs : walkStep rules readDir (p, o) = .ok ((remapEntries rules p o l).1.reverse, (remapEntries rules p o l).2) :=
      walkStep_ok.2 ⟨l, h1, rfl, rfl⟩
    exact ⟨_, ho.snoc hs (List.mem_reverse.2 (mem_remapEntries_dirs.2 ⟨e, h2, h3, rfl⟩))⟩

theorem remapWalk_spec {rules : List BuiltRule} {readDir : Path → Res (List FileEntry)} {fuel : Nat}
    {ms : List (Path × FileEntry × Path)} (h : remapWalk rules readDir fuel [([], none)] [] = .ok ms) :
    ∀ path e pre, (path, e, pre) ∈ ms ↔
      ∃ d, EntryIn readDir d e ∧ path = d ++ [e.name] ∧ IsLongest rules path (some pre) := by
  rw [remapWalk_dfs] at h
  obtain ⟨h1, h2⟩ := dfs_ok h
  have hroot : IsLongest rules [] none := by
    intro m hm h0
    exact absurd (List.prefix_nil.1 hm) h0
  intro path e pre
  rw [h1]
  constructor
  · rintro (h | ⟨n, hn, ⟨d, o⟩, cs, os, hr, hs, ho⟩)
    · cases h
    · rw [List.mem_singleton] at hn
      subst hn
      obtain ⟨k1, k2⟩ := reach_walk hr .root hroot
      obtain ⟨l, e1, _, e3⟩ := walkStep_ok.1 hs
      rw [e3] at ho
      obtain ⟨e', f1, m, f2, f3⟩ := mem_remapEntries_ms.1 ho
      cases f3
      refine ⟨d, ⟨k1, l, e1, f1⟩, rfl, ?_⟩
      have := isLongest_step k2 e.name
      simp only at this f2
      rw [f2] at this
      exact this
  · rintro ⟨d, ⟨hd, l, hl, he⟩, rfl, hlong⟩
    obtain ⟨o, ho⟩ := dir_reached (rules := rules) hd
    have hs : walkStep rules readDir (d, o) = .ok ((remapEntries rules d o l).1.reverse, (remapEntries rules d o l).2) :=
      walkStep_ok.2 ⟨l, hl, rfl, rfl⟩
    refine .inr ⟨_, by simp, (d, o), _, _, ho, hs, mem_remapEntries_ms.2 ⟨e, he, pre, ?_, rfl⟩⟩
    exact isLongest_unique (isLongest_step (reach_walk ho .root hroot).2 e.name) hlong

theorem isLongest_matchPoint {G : GlobEngine} {rules : List BuiltRule}
    (hb : ∀ b ∈ rules, G (ruleGlob (b.lhs, b.rhs)) = some b.glob) {p m : Path} :
    IsLongest rules p (some m) ↔ MatchPoint G (rules.map (fun b => (b.lhs, b.rhs))) p m := by
  have hany : ∀ m, anyMatch rules m = true ↔ ∃ r ∈ rules.map (fun b => (b.lhs, b.rhs)), Hits G r m := by
    intro m
    unfold anyMatch
    rw [List.any_eq_true]
    constructor
    · rintro ⟨b, h1, h2⟩
      obtain ⟨caps, hc⟩ := Option.isSome_iff_exists.1 h2
      exact ⟨(b.lhs, b.rhs), List.mem_map.2 ⟨b, h1, rfl⟩, caps, (hits_built (hb b h1) m caps).2 hc⟩
    · rintro ⟨r, h1, caps, h2⟩
      obtain ⟨b, h3, rfl⟩ := List.mem_map.1 h1
      exact ⟨b, h3, by rw [(hits_built (hb b h3) m caps).1 h2]; rfl⟩
  have hnone : ∀ m, anyMatch rules m = false ↔ ∀ r ∈ rules.map (fun b => (b.lhs, b.rhs)), ¬ Hits G r m := by
    intro m
    rw [← Bool.not_eq_true, hany]
    constructor
    · intro h r hr hh; exact h ⟨r, hr, hh⟩
    · rintro h ⟨r, hr, hh⟩; exact h r hr hh
  unfold IsLongest MatchPoint
  simp only [hany, hnone]

theorem pathSuffix_append : ∀ (m s : Path), pathSuffix (m ++ s) m = .ok s := by
  intro m
  induction m with
  | nil =>
    intro s
    induction s with
    | nil => rfl
    | cons c cs ih =>
      rw [List.nil_append] at ih ⊢
      rw [pathSuffix, ih]; rfl
  | cons c cs ih => intro s; rw [List.cons_append, pathSuffix, if_pos rfl]; exact ih s

/-! ## The index -/

open Trie in
theorem insertTailWith_latin1 {α : Type} {val : α} {f : Trie α → Res (Trie α)} : ∀ {n : Str} {t t' : Trie α}, WF t →
    insertTailWith val f n t = .ok t' → Latin1 n := by
  intro n
  induction n with
  | nil => intro t t' _ _ c hc; simp at hc
  | cons c cs ih =>
    intro t t' ht h
    obtain ⟨ks, r⟩ := t
    simp only [insertTailWith] at h
    cases hk : ks[c.toNat]? with
    | none => rw [hk] at h; cases h
    | some o =>
      have hlt : c.toNat < ks.length := by
        obtain ⟨hh, _⟩ := List.getElem?_eq_some_iff.1 hk; exact hh
      have hlen : ks.length = 256 := ht.len
      have hcs : Latin1 cs := by
        rw [hk] at h
        cases o with
        | none =>
          obtain ⟨u, h1, _⟩ := Res.bind_eq_ok.1 h
          exact ih wf_empty h1
        | some u0 =>
          obtain ⟨u, h1, _⟩ := Res.bind_eq_ok.1 h
          exact ih (ht.kid (List.mem_of_getElem? hk)) h1
      intro x hx
      rcases List.mem_cons.1 hx with rfl | hx
      · omega
      · exact hcs x hx

/-- The record made at `p` for a host path mapped to `q`, where `p` is an initial part of `q`. -/
def chainVal (path : Path) (entry : FileEntry) (q p : Path) : MapEntry :=
  if p = q then ⟨path, entry, false⟩ else ⟨path, ⟨p.getLastD [], true, 0⟩, true⟩

open Trie in
theorem insertChain_spec (path : Path) (entry : FileEntry) : ∀ {q : Path} {t t' : Trie MapEntry}, WF t →
    insertChain path entry q t = .ok t' → Latin1Path q ∧ WF t' ∧
      ∀ p, p ≠ [] → look p t' = (look p t).or (if p <+: q then some (chainVal path entry q p) else none) := by
  intro q
  induction q with
  | nil =>
    intro t t' ht h
    cases h
    refine ⟨by intro s hs; simp at hs, ht, ?_⟩
    intro p hp
    rw [if_neg (by rw [List.prefix_nil]; exact hp)]
    simp
  | cons c cs ih =>
    intro t t' ht h
    -- both shapes of the insertion
    obtain ⟨val, f, hval, hf, hins⟩ : ∃ (val : MapEntry) (f : Trie MapEntry → Res (Trie MapEntry)),
        val = chainVal path entry (c :: cs) [c] ∧ (∀ s, f s = insertChain path entry cs s) ∧
        insertChain path entry (c :: cs) t = insertTailWith val f c t := by
      cases cs with
      | nil => exact ⟨_, .ok, by simp [chainVal], fun s => rfl, rfl⟩
      | cons d ds => exact ⟨_, _, by simp [chainVal], fun s => rfl, rfl⟩
    rw [hins] at h
    have hc := insertTailWith_latin1 ht h
    have hcs0 : ∀ s s', WF s → f s = .ok s' → WF s' := by
      intro s s' hs he
      rw [hf] at he
      exact (ih hs he).2.1
    rcases insertTailWith_spec hcs0 ht hc (val := val) with ⟨v, s, s', h1, h2, h3, t1, h4, h5, h6⟩ | ⟨_, _, _, _, _, _, hbad⟩
    · rw [h4] at h; cases h
      rw [hf] at h3
      obtain ⟨i1, i2, i3⟩ := ih h2 h3
      refine ⟨?_, h5, ?_⟩
      · intro x hx
        rcases List.mem_cons.1 hx with rfl | hx
        · exact hc
        · exact i1 x hx
      · intro p hp
        match p, hp with
        | [a], _ =>
          simp only [look, h6]
          by_cases ha : a = c
          · subst ha
            rw [if_pos rfl, if_pos (by simp)]
            rcases h1 with h1 | ⟨h1, rfl, rfl⟩
            · simp [h1]
            · simp [h1, hval]
          · rw [if_neg ha, if_neg]
            · simp
            · rw [List.cons_prefix_cons]; exact fun hh => ha hh.1
        | a :: b :: bs, _ =>
          simp only [look, h6]
          by_cases ha : a = c
          · subst ha
            rw [if_pos rfl]
            simp only
            rw [i3 (b :: bs) (by simp)]
            have hpre : (a :: b :: bs <+: a :: cs) ↔ (b :: bs <+: cs) := by
              rw [List.cons_prefix_cons]; simp
            have hval2 : chainVal path entry (a :: cs) (a :: b :: bs) = chainVal path entry cs (b :: bs) := by
              unfold chainVal
              simp only [List.cons.injEq, true_and]
              split
              · rfl
              · simp [List.getLastD]
            simp only [hpre, hval2]
            rcases h1 with h1 | ⟨h1, rfl, rfl⟩
            · simp [h1]
            · simp [h1, look_empty]
          · rw [if_neg ha, if_neg]
            · simp
            · rw [List.cons_prefix_cons]; exact fun hh => ha hh.1
    · exact absurd h (hbad t')

/-- The record at `p` after mapping the entries of a history, oldest first. -/
def histLook (hist : List (Path × FileEntry × Path)) (p : Path) : Option MapEntry :=
  (hist.find? (fun x => decide (p <+: x.2.2))).map (fun x => chainVal x.1 x.2.1 x.2.2 p)

theorem histLook_cons (x : Path × FileEntry × Path) (hist : List (Path × FileEntry × Path)) (p : Path) :
    histLook (x :: hist) p = (if p <+: x.2.2 then some (chainVal x.1 x.2.1 x.2.2 p) else none).or (histLook hist p) := by
  unfold histLook
  rw [List.find?_cons]
  by_cases h : p <+: x.2.2
  · simp [h]
  · simp [h]

open Trie in
theorem insertMatches_spec (rules : List BuiltRule) : ∀ {ms : List (Path × FileEntry × Path)} {t t' : Trie MapEntry},
    WF t → insertMatches rules ms t = .ok t' → ∃ hist, WF t' ∧
      (∀ p, p ≠ [] → look p t' = (look p t).or (histLook hist p)) ∧
      (∀ path e q, (path, e, q) ∈ hist → Latin1Path q ∧ ∃ pre suffix, (path, e, pre) ∈ ms ∧ pathSuffix path pre = .ok suffix ∧
        evalRules pre suffix rules none = .ok (some q)) ∧
      ∀ path e pre, (path, e, pre) ∈ ms → ∃ suffix o, pathSuffix path pre = .ok suffix ∧
        evalRules pre suffix rules none = .ok o ∧ ∀ q, o = some q → (path, e, q) ∈ hist := by
  intro ms
  induction ms with
  | nil =>
    intro t t' ht h
    cases h
    exact ⟨[], ht, by simp [histLook], by simp, by simp⟩
  | cons x ms ih =>
    obtain ⟨path, entry, pre⟩ := x
    intro t t' ht h
    simp only [insertMatches] at h
    obtain ⟨suffix, h1, h2⟩ := Res.bind_eq_ok.1 h
    obtain ⟨o, h3, h4⟩ := Res.bind_eq_ok.1 h2
    cases o with
    | none =>
      simp only at h4
      obtain ⟨hist, i1, i2, i3, i4⟩ := ih ht h4
      refine ⟨hist, i1, i2, ?_, ?_⟩
      · intro p e q hm
        obtain ⟨hL, pre', suf', k1, k2, k3⟩ := i3 p e q hm
        exact ⟨hL, pre', suf', by simp [k1], k2, k3⟩
      · intro p e pr hm
        rcases List.mem_cons.1 hm with hm | hm
        · cases hm
          exact ⟨suffix, none, h1, h3, by simp⟩
        · exact i4 p e pr hm
    | some q =>
      simp only at h4
      obtain ⟨t1, k1, k2⟩ := Res.bind_eq_ok.1 h4
      obtain ⟨j1, j2, j3⟩ := insertChain_spec path entry ht k1
      obtain ⟨hist, i1, i2, i3, i4⟩ := ih j2 k2
      refine ⟨(path, entry, q) :: hist, i1, ?_, ?_, ?_⟩
      · intro p hp
        rw [i2 p hp, j3 p hp, histLook_cons, Option.or_assoc]
      · intro p e q' hm
        rcases List.mem_cons.1 hm with hm | hm
        · cases hm
          exact ⟨j1, pre, suffix, by simp, h1, h3⟩
        · obtain ⟨hL, pre', suf', k1, k2, k3⟩ := i3 p e q' hm
          exact ⟨hL, pre', suf', by simp [k1], k2, k3⟩
      · intro p e pr hm
        rcases List.mem_cons.1 hm with hm | hm
        · cases hm
          exact ⟨suffix, some q, h1, h3, by rintro q' ⟨rfl⟩; simp⟩
        · obtain ⟨s, o, e1, e2, e3⟩ := i4 p e pr hm
          exact ⟨s, o, e1, e2, fun q' hq' => by simp [e3 q' hq']⟩

/-- What building the overlay establishes. -/
theorem remapNew_spec {G : GlobEngine} {cfg : List Rule} {readDir : Path → Res (List FileEntry)} {fuel : Nat}
    {t : Trie MapEntry} (h : remapNew G cfg readDir fuel = .ok t) : ∃ hist, Trie.WF t ∧
      (∀ p, p ≠ [] → Trie.look p t = histLook hist p) ∧
      (∀ path e q, (path, e, q) ∈ hist ↔ ∃ d, EntryIn readDir d e ∧ path = d ++ [e.name] ∧ MapsTo G cfg path q) ∧
      (∀ d e, EntryIn readDir d e → IsMapped G cfg (d ++ [e.name]) → ∃ q, MapsTo G cfg (d ++ [e.name]) q) := by
  unfold remapNew at h
  obtain ⟨rules, h1, h2⟩ := Res.bind_eq_ok.1 h
  obtain ⟨ms, h3, h4⟩ := Res.bind_eq_ok.1 h2
  obtain ⟨hcfg, hb⟩ := buildRules_ok h1
  have hw := remapWalk_spec h3
  obtain ⟨hist, i1, i2, i3, i4⟩ := insertMatches_spec rules Trie.wf_empty h4
  have hpre : ∀ {path pre : Path}, IsLongest rules path (some pre) → ∃ s, path = pre ++ s ∧ MatchPoint G cfg path pre := by
    intro path pre hl
    obtain ⟨s, hs⟩ := hl.1
    rw [isLongest_matchPoint hb, hcfg] at hl
    exact ⟨s, hs.symm, hl⟩
  have hfwd : ∀ path e q, (path, e, q) ∈ hist → ∃ d, EntryIn readDir d e ∧ path = d ++ [e.name] ∧ MapsTo G cfg path q := by
    intro path e q hm
    obtain ⟨_, pre, suffix, k1, k2, k3⟩ := i3 path e q hm
    obtain ⟨d, e1, e2, e3⟩ := (hw path e pre).1 k1
    obtain ⟨s, e4, e5⟩ := hpre e3
    refine ⟨d, e1, e2, ?_⟩
    rw [e4, pathSuffix_append] at k2
    cases k2
    obtain ⟨r, caps, f1, f2, f3⟩ := evalRules_spec _ rules rfl hb _ k3
    rw [hcfg] at f1
    exact ⟨pre, suffix, r, caps, e4, e5, f1, f2, f3⟩
  have hbwd : ∀ d e m r, EntryIn readDir d e → MatchPoint G cfg (d ++ [e.name]) m → SelectedRule G cfg m r →
      ∃ q, (d ++ [e.name], e, q) ∈ hist := by
    intro d e m r he hm hr
    have hl : IsLongest rules (d ++ [e.name]) (some m) := by rw [isLongest_matchPoint hb, hcfg]; exact hm
    obtain ⟨suffix, o, k1, k2, k3⟩ := i4 _ _ _ ((hw _ e m).2 ⟨d, he, rfl, hl⟩)
    have ho := evalRules_spec _ rules rfl hb _ k2
    cases o with
    | none =>
      rw [hcfg] at ho
      exact absurd hr (unselected_not ho r)
    | some q => exact ⟨q, k3 q rfl⟩
  refine ⟨hist, i1, ?_, ?_, ?_⟩
  · intro p hp
    rw [i2 p hp, Trie.look_empty]; rfl
  · intro path e q
    refine ⟨hfwd path e q, ?_⟩
    rintro ⟨d, h1, rfl, h3⟩
    obtain ⟨m, s, r, caps, k1, k2, k3, k4, k5⟩ := id h3
    obtain ⟨q', hq'⟩ := hbwd d e m r h1 k2 k3
    obtain ⟨_, _, _, hq''⟩ := hfwd _ _ _ hq'
    rw [mapsTo_unique h3 hq'']
    exact hq'
  · rintro d e he ⟨m, r, hm, hr⟩
    obtain ⟨q, hq⟩ := hbwd d e m r he hm hr
    obtain ⟨_, _, _, hq'⟩ := hfwd _ _ _ hq
    exact ⟨q, hq'⟩

end Xdvdfs

namespace Xdvdfs

open Spec

/-! ## Sizes of tries -/

namespace Trie

theorem nodeAt_size {α : Type} : ∀ {n : Str} {t u : Trie α}, nodeAt n t = some u → sizeOf u ≤ sizeOf t := by
  intro n
  induction n with
  | nil => intro t u h; cases h; exact Nat.le_refl _
  | cons c cs ih =>
    intro t u h
    simp only [nodeAt] at h
    split at h
    · rename_i u' hk
      have h1 := ih h
      obtain ⟨ks, r⟩ := t
      have h2 := List.sizeOf_lt_of_mem (List.mem_of_getElem? hk)
      simp only [kids] at h2
      simp only [Trie.node.sizeOf_spec, Option.some.sizeOf_spec] at h2 ⊢
      omega
    · cases h

theorem recAt_size {α : Type} {n : Str} {t s : Trie α} {v : α} (h : recAt n t = some (v, s)) : sizeOf s < sizeOf t := by
  unfold recAt at h
  cases hu : nodeAt n t with
  | none => rw [hu] at h; cases h
  | some u =>
    rw [hu] at h
    have h1 := nodeAt_size hu
    obtain ⟨ks, r⟩ := u
    simp only [Option.bind_some, record] at h
    subst h
    simp only [Trie.node.sizeOf_spec, Option.some.sizeOf_spec, Prod.mk.sizeOf_spec] at h1
    omega

theorem subAt_sizeOf {α : Type} : ∀ {p : Path} {t s : Trie α}, subAt p t = some s → sizeOf s + p.length ≤ sizeOf t := by
  intro p
  induction p with
  | nil => intro t s h; cases h; simp
  | cons c cs ih =>
    intro t s h
    simp only [subAt] at h
    cases hc : recAt c t with
    | none => rw [hc] at h; cases h
    | some x =>
      obtain ⟨v, s1⟩ := x
      rw [hc] at h
      have h1 := ih h
      have h2 := recAt_size hc
      simp only [List.length_cons]
      omega

theorem subAt_size {α : Type} {p : Path} {t s : Trie α} (h : subAt p t = some s) : s.size + p.length ≤ t.size :=
  subAt_sizeOf h

theorem size_pos {α : Type} (t : Trie α) : 0 < t.size := by
  unfold size
  cases t
  simp only [Trie.node.sizeOf_spec]
  omega

theorem iter_sized {α : Type} {t : Trie α} (ht : WF t) : ∃ res, (∀ fuel, t.size ≤ fuel → iter t fuel = .ok res) ∧
    (∀ m v, (m, v) ∈ res ↔ look [m] t = some v) ∧ (res.map Prod.fst).Nodup := iter_spec ht

theorem iter_mono {α : Type} {t : Trie α} {fuel fuel' : Nat} {res : List (Str × α)} (h : iter t fuel = .ok res)
    (hle : fuel ≤ fuel') : iter t fuel' = .ok res := by
  have := iterLoop_mono _ _ _ _ h (fuel' - fuel)
  rw [Nat.add_sub_cancel' hle] at this
  exact this

end Trie

/-! ## Listing and copying -/

section
variable {t : Trie MapEntry} (ht : Trie.WF t)
include ht

theorem iter_ok {s : Trie MapEntry} (hs : Trie.WF s) {k : Nat} {items : List (Str × MapEntry)} (h : s.iter k = .ok items) :
    ∀ n m, (n, m) ∈ items ↔ Trie.look [n] s = some m := by
  obtain ⟨res, h1, h2, _⟩ := Trie.iter_sized hs
  have e1 := Trie.iter_mono h (Nat.le_max_left k s.size)
  rw [h1 _ (Nat.le_max_right k s.size)] at e1
  cases e1
  exact h2

theorem remapReadDir_mem {k : Nat} {d : Path} {l : List FileEntry} (hd : Latin1Path d) (h : remapReadDir t k d = .ok l)
    (e : FileEntry) : e ∈ l ↔ ∃ m, Trie.look (d ++ [e.name]) t = some m ∧ e.isDir = m.hostEntry.isDir ∧ e.len = m.hostEntry.len := by
  unfold remapReadDir at h
  rw [Trie.lookupSubdir_eq ht hd, Res.ok_bind] at h
  cases hs : Trie.subAt d t with
  | none => rw [hs] at h; cases h
  | some s =>
    rw [hs] at h
    obtain ⟨items, h1, h2⟩ := Res.bind_eq_ok.1 h
    cases h2
    have hi := iter_ok ht (Trie.subAt_wf ht hs) h1
    rw [List.mem_map, Trie.look_append hs _ (by simp)]
    constructor
    · rintro ⟨⟨n, m⟩, hm, rfl⟩
      exact ⟨m, (hi n m).1 hm, rfl, rfl⟩
    · rintro ⟨m, hm, h3, h4⟩
      refine ⟨(e.name, m), (hi _ _).2 hm, ?_⟩
      obtain ⟨n, i, len⟩ := e
      simp only at h3 h4
      simp [h3, h4]

theorem remapReadDir_ok {k : Nat} (hk : t.size ≤ k) {d : Path} (hd : Latin1Path d)
    (h : d = [] ∨ ∃ m, Trie.look d t = some m) : ∃ l, remapReadDir t k d = .ok l := by
  have hs : ∃ s, Trie.subAt d t = some s := by
    by_cases h0 : d = []
    · exact ⟨t, by rw [h0]; rfl⟩
    · obtain ⟨m, hm⟩ := h.resolve_left h0
      have := Trie.subAt_isSome (t := t) h0
      rw [hm] at this
      exact Option.isSome_iff_exists.1 this
  obtain ⟨s, hs⟩ := hs
  obtain ⟨res, h1, _⟩ := Trie.iter_sized (Trie.subAt_wf ht hs)
  have := Trie.subAt_size hs
  refine ⟨res.map (fun x => ⟨x.1, x.2.hostEntry.isDir, x.2.hostEntry.len⟩), ?_⟩
  unfold remapReadDir
  rw [Trie.lookupSubdir_eq ht hd, Res.ok_bind, hs]
  simp only
  rw [h1 k (by omega), Res.ok_bind, Res.pure_eq]

theorem overlay_dir {k : Nat} {d : Path} (h : DirOf (remapReadDir t k) d) :
    Latin1Path d ∧ (d = [] ∨ ∃ m, Trie.look d t = some m ∧ m.hostEntry.isDir = true) := by
  induction h with
  | root => exact ⟨by intro s hs; simp at hs, .inl rfl⟩
  | sub _ h2 h3 h4 ih =>
    obtain ⟨m, e1, e2, _⟩ := (remapReadDir_mem ht ih.1 h2 _).1 h3
    exact ⟨Trie.look_latin1 ht e1, .inr ⟨m, e1, by rw [← e2]; exact h4⟩⟩

theorem overlay_entry {k : Nat} {d : Path} {e : FileEntry} (h : EntryIn (remapReadDir t k) d e) :
    Latin1Path (d ++ [e.name]) ∧
      ∃ m, Trie.look (d ++ [e.name]) t = some m ∧ e.isDir = m.hostEntry.isDir ∧ e.len = m.hostEntry.len := by
  obtain ⟨h1, l, h2, h3⟩ := h
  obtain ⟨m, e1, e2⟩ := (remapReadDir_mem ht (overlay_dir ht h1).1 h2 e).1 h3
  exact ⟨Trie.look_latin1 ht e1, m, e1, e2⟩

theorem remapCopy_look {copy : Path → Nat → Nat → List Bytes × Res Nat} {q : Path} {m : MapEntry} (hq : q ≠ [])
    (h : Trie.look q t = some m) (off size : Nat) : remapCopy t copy q off size = copy m.hostPath off size := by
  unfold remapCopy
  rw [Trie.get_eq ht (Trie.look_latin1 ht h) hq, h]

/-- A record with a directory at every proper initial part is listed. -/
theorem overlay_listed {k : Nat} (hk : t.size ≤ k) : ∀ (n : Nat) (q : Path) (m : MapEntry), q.length = n → q ≠ [] →
    Trie.look q t = some m →
    (∀ p, p ≠ [] → p <+: q → p ≠ q → ∃ m, Trie.look p t = some m ∧ m.hostEntry.isDir = true) →
    ∃ d c, q = d ++ [c] ∧ EntryIn (remapReadDir t k) d ⟨c, m.hostEntry.isDir, m.hostEntry.len⟩ := by
  intro n
  induction n with
  | zero => intro q m hl h0; exact absurd (List.eq_nil_of_length_eq_zero hl) h0
  | succ n ih =>
    intro q m hl h0 hm hp
    rcases List.eq_nil_or_concat q with h | ⟨d, c, h⟩
    · exact absurd h h0
    rw [List.concat_eq_append] at h
    subst h
    have hlat : Latin1Path d := fun s hs => Trie.look_latin1 ht hm s (by simp [hs])
    refine ⟨d, c, rfl, ?_⟩
    by_cases hd0 : d = []
    · subst hd0
      obtain ⟨l, hl⟩ := remapReadDir_ok ht hk hlat (.inl rfl)
      exact ⟨.root, l, hl, (remapReadDir_mem ht hlat hl _).2 ⟨m, hm, rfl, rfl⟩⟩
    · obtain ⟨md, hmd, hdir⟩ := hp d hd0 (List.prefix_append _ _) (by simp)
      obtain ⟨d', c', e1, e2⟩ := ih d md (by simpa using hl) hd0 hmd (fun p p0 p1 p2 => by
        refine hp p p0 (p1.trans (List.prefix_append _ _)) ?_
        rintro rfl
        have := p1.length_le
        simp at this
        omega)
      have hdd : DirOf (remapReadDir t k) d := by
        obtain ⟨k1, l, k2, k3⟩ := e2
        rw [e1]
        have := DirOf.sub k1 k2 k3
        exact this hdir
      obtain ⟨l, hl⟩ := remapReadDir_ok ht hk hlat (.inr ⟨md, hmd⟩)
      exact ⟨hdd, l, hl, (remapReadDir_mem ht hlat hl _).2 ⟨m, hm, rfl, rfl⟩⟩

/-! ## The dump -/

def dumpStep (t : Trie MapEntry) (ifuel : Nat) (p : Path) : Res (List Path × List (Path × Path)) := do
  match ← t.lookupSubdir p with
  | none => .panic
  | some sub => do
    let items ← sub.iter ifuel
    pure ((dumpEntries p items).2.reverse, (dumpEntries p items).1)

omit ht in
theorem dumpLoop_dfs (t : Trie MapEntry) (ifuel : Nat) : ∀ (fuel : Nat) (stack : List Path) (acc : List (Path × Path)),
    dumpLoop t ifuel fuel stack acc = dfs (dumpStep t ifuel) fuel stack acc := by
  intro fuel
  induction fuel with
  | zero => intro stack acc; cases stack <;> rfl
  | succ fuel ih =>
    intro stack acc
    cases stack with
    | nil => rfl
    | cons p stack =>
      simp only [dumpLoop, dfs, dumpStep]
      cases t.lookupSubdir p with
      | ok o =>
        cases o with
        | none => rfl
        | some sub =>
          simp only [Res.ok_bind]
          cases sub.iter ifuel with
          | ok items => simp only [Res.ok_bind, Res.pure_eq]; exact ih _ _
          | err e => rfl
          | panic => rfl
          | hang => rfl
      | err e => rfl
      | panic => rfl
      | hang => rfl

omit ht in
theorem mem_dumpEntries_out {dir : Path} {x : Path × Path} : ∀ {l : List (Str × MapEntry)},
    x ∈ (dumpEntries dir l).1 ↔ ∃ n m, (n, m) ∈ l ∧ m.isPrefixDir = false ∧ x = (m.hostPath, dir ++ [n]) := by
  intro l
  induction l with
  | nil => simp [dumpEntries]
  | cons y ys ih =>
    obtain ⟨n, m⟩ := y
    have hstep : (dumpEntries dir ((n, m) :: ys)).1 = if m.isPrefixDir then (dumpEntries dir ys).1 else
      (m.hostPath, dir ++ [n]) :: (dumpEntries dir ys).1 := rfl
    rw [hstep]
    cases hp : m.isPrefixDir with
    | true =>
      simp only [if_true]
      rw [ih]
      constructor
      · rintro ⟨n', m', h1, h2⟩; exact ⟨n', m', by simp [h1], h2⟩
      · rintro ⟨n', m', h1, h2, h3⟩
        rcases List.mem_cons.1 h1 with h1 | h1
        · cases h1; rw [hp] at h2; cases h2
        · exact ⟨n', m', h1, h2, h3⟩
    | false =>
      simp only [Bool.false_eq_true, if_false]
      rw [List.mem_cons, ih]
      constructor
      · rintro (h | ⟨n', m', h1, h2⟩)
        · exact ⟨n, m, by simp, hp, h⟩
        · exact ⟨n', m', by simp [h1], h2⟩
      · rintro ⟨n', m', h1, h2, h3⟩
        rcases List.mem_cons.1 h1 with h1 | h1
        · cases h1; exact .inl h3
        · exact .inr ⟨n', m', h1, h2, h3⟩

omit ht in
theorem mem_dumpEntries_dirs {dir : Path} {x : Path} : ∀ {l : List (Str × MapEntry)},
    x ∈ (dumpEntries dir l).2 ↔ ∃ n m, (n, m) ∈ l ∧ m.hostEntry.isDir = true ∧ x = dir ++ [n] := by
  intro l
  induction l with
  | nil => simp [dumpEntries]
  | cons y ys ih =>
    obtain ⟨n, m⟩ := y
    have hstep : (dumpEntries dir ((n, m) :: ys)).2 = if m.hostEntry.isDir then (dir ++ [n]) :: (dumpEntries dir ys).2
      else (dumpEntries dir ys).2 := rfl
    rw [hstep]
    cases hp : m.hostEntry.isDir with
    | false =>
      simp only [Bool.false_eq_true, if_false]
      rw [ih]
      constructor
      · rintro ⟨n', m', h1, h2⟩; exact ⟨n', m', by simp [h1], h2⟩
      · rintro ⟨n', m', h1, h2, h3⟩
        rcases List.mem_cons.1 h1 with h1 | h1
        · cases h1; rw [hp] at h2; cases h2
        · exact ⟨n', m', h1, h2, h3⟩
    | true =>
      simp only [if_true]
      rw [List.mem_cons, ih]
      constructor
      · rintro (h | ⟨n', m', h1, h2⟩)
        · exact ⟨n, m, by simp, hp, h⟩
        · exact ⟨n', m', by simp [h1], h2⟩
      · rintro ⟨n', m', h1, h2, h3⟩
        rcases List.mem_cons.1 h1 with h1 | h1
        · cases h1; exact .inl h3
        · exact .inr ⟨n', m', h1, h2, h3⟩

theorem dumpStep_ok {k : Nat} {p : Path} (hp : Latin1Path p) {cs : List Path} {os : List (Path × Path)}
    (h : dumpStep t k p = .ok (cs, os)) :
    (∀ c, c ∈ cs ↔ ∃ n m, c = p ++ [n] ∧ Trie.look c t = some m ∧ m.hostEntry.isDir = true) ∧
    ∀ o, o ∈ os ↔ ∃ n m, o = (m.hostPath, p ++ [n]) ∧ Trie.look (p ++ [n]) t = some m ∧ m.isPrefixDir = false := by
  unfold dumpStep at h
  rw [Trie.lookupSubdir_eq ht hp, Res.ok_bind] at h
  cases hs : Trie.subAt p t with
  | none => rw [hs] at h; cases h
  | some s =>
    rw [hs] at h
    obtain ⟨items, h1, h2⟩ := Res.bind_eq_ok.1 h
    cases h2
    have hi := iter_ok ht (Trie.subAt_wf ht hs) h1
    constructor
    · intro c
      rw [List.mem_reverse, mem_dumpEntries_dirs]
      constructor
      · rintro ⟨n, m, e1, e2, rfl⟩
        exact ⟨n, m, rfl, by rw [Trie.look_append hs _ (by simp)]; exact (hi n m).1 e1, e2⟩
      · rintro ⟨n, m, rfl, e2, e3⟩
        rw [Trie.look_append hs _ (by simp)] at e2
        exact ⟨n, m, (hi n m).2 e2, e3, rfl⟩
    · intro o
      rw [mem_dumpEntries_out]
      constructor
      · rintro ⟨n, m, e1, e2, rfl⟩
        exact ⟨n, m, rfl, by rw [Trie.look_append hs _ (by simp)]; exact (hi n m).1 e1, e2⟩
      · rintro ⟨n, m, rfl, e2, e3⟩
        rw [Trie.look_append hs _ (by simp)] at e2
        exact ⟨n, m, (hi n m).2 e2, e3, rfl⟩

/-- Nodes of the dump are directories of the overlay. -/
theorem reach_dump {k : Nat} {p q : Path} (h : Reach (dumpStep t k) p q) :
    (Latin1Path p ∧ (p = [] ∨ ∃ m, Trie.look p t = some m ∧ m.hostEntry.isDir = true)) →
    Latin1Path q ∧ (q = [] ∨ ∃ m, Trie.look q t = some m ∧ m.hostEntry.isDir = true) := by
  induction h with
  | refl n => exact id
  | step h1 h2 _ ih =>
    intro hp
    obtain ⟨n, m, e1, e2, e3⟩ := ((dumpStep_ok ht hp.1 h1).1 _).1 h2
    exact ih ⟨Trie.look_latin1 ht e2, .inr ⟨m, e2, e3⟩⟩

theorem dump_sound {k k' : Nat} {out : List (Path × Path)} (h : dumpLoop t k k' [[]] [] = .ok out) {hp q : Path}
    (hm : (hp, q) ∈ out) : q ≠ [] ∧ ∃ m, Trie.look q t = some m ∧ m.isPrefixDir = false ∧ m.hostPath = hp := by
  rw [dumpLoop_dfs] at h
  rcases ((dfs_ok h).1 (hp, q)).1 hm with hm | ⟨n, hn, n', cs, os, hr, hs, ho⟩
  · cases hm
  · rw [List.mem_singleton] at hn
    subst hn
    have hlat := reach_dump ht hr ⟨by intro s hs; simp at hs, .inl rfl⟩
    obtain ⟨c, m, e1, e2, e3⟩ := ((dumpStep_ok ht hlat.1 hs).2 _).1 ho
    cases e1
    exact ⟨by simp, m, e2, e3, rfl⟩

theorem overlay_reached {k k' k'' : Nat} {out : List (Path × Path)} (h : dumpLoop t k k' [[]] [] = .ok out) {d : Path}
    (hd : DirOf (remapReadDir t k'') d) : Reach (dumpStep t k) [] d := by
  rw [dumpLoop_dfs] at h
  obtain ⟨_, h2⟩ := dfs_ok h
  induction hd with
  | root => exact .refl _
  | @sub p l e h1 e1 e2 e3 ih =>
    obtain ⟨cs, os, hs⟩ := h2 [] (by simp) _ ih
    have hlat := overlay_dir ht h1
    obtain ⟨m, f1, f2, _⟩ := (remapReadDir_mem ht hlat.1 e1 e).1 e2
    exact ih.snoc hs (((dumpStep_ok ht hlat.1 hs).1 _).2 ⟨e.name, m, rfl, f1, by rw [← f2]; exact e3⟩)

theorem dump_complete {k k' k'' : Nat} {out : List (Path × Path)} (h : dumpLoop t k k' [[]] [] = .ok out) {d : Path}
    (hd : DirOf (remapReadDir t k'') d) {n : Str} {m : MapEntry} (hm : Trie.look (d ++ [n]) t = some m)
    (hp : m.isPrefixDir = false) : (m.hostPath, d ++ [n]) ∈ out := by
  have hr := overlay_reached ht h hd
  rw [dumpLoop_dfs] at h
  obtain ⟨h1, h2⟩ := dfs_ok h
  obtain ⟨cs, os, hs⟩ := h2 [] (by simp) _ hr
  exact (h1 _).2 (.inr ⟨[], by simp, d, cs, os, hr, hs, ((dumpStep_ok ht (overlay_dir ht hd).1 hs).2 _).2 ⟨n, m, rfl, hm, hp⟩⟩)

/-- The dump ends. -/
theorem dump_ends : ∃ k0, ∀ k, k0 ≤ k → ∃ out, remapDump t k = .ok out := by
  have hstep : ∀ k, t.size ≤ k → ∀ p, Latin1Path p → (p = [] ∨ ∃ m, Trie.look p t = some m ∧ m.hostEntry.isDir = true) →
      dumpStep t k p = dumpStep t t.size p ∧ ∃ cs os, dumpStep t t.size p = .ok (cs, os) := by
    intro k hk p hlat hp
    have hs : ∃ s, Trie.subAt p t = some s := by
      by_cases h0 : p = []
      · exact ⟨t, by rw [h0]; rfl⟩
      · obtain ⟨m, hm, _⟩ := hp.resolve_left h0
        have := Trie.subAt_isSome (t := t) h0
        rw [hm] at this
        exact Option.isSome_iff_exists.1 this
    obtain ⟨s, hs⟩ := hs
    obtain ⟨res, h1, _⟩ := Trie.iter_sized (Trie.subAt_wf ht hs)
    have := Trie.subAt_size hs
    have e : ∀ k', t.size ≤ k' → dumpStep t k' p = .ok ((dumpEntries p res).2.reverse, (dumpEntries p res).1) := by
      intro k' hk'
      unfold dumpStep
      rw [Trie.lookupSubdir_eq ht hlat, Res.ok_bind, hs]
      simp only
      rw [h1 k' (by omega)]
      rfl
    exact ⟨by rw [e k hk, e _ (Nat.le_refl _)], _, _, e _ (Nat.le_refl _)⟩
  let good : Path → Prop := fun p => Latin1Path p ∧ (p = [] ∨ ∃ m, Trie.look p t = some m ∧ m.hostEntry.isDir = true)
  have hacc : ∀ n p, good p → t.size - p.length ≤ n → Acc (ChildOf (dumpStep t t.size)) p := by
    intro n
    induction n with
    | zero =>
      intro p hp hn
      refine ⟨_, ?_⟩
      rintro c ⟨cs, os, h1, h2⟩
      obtain ⟨n, m, e1, e2, e3⟩ := ((dumpStep_ok ht hp.1 h1).1 c).1 h2
      exfalso
      have h0 : c ≠ [] := by rw [e1]; simp
      have := Trie.subAt_isSome (t := t) h0
      rw [e2] at this
      obtain ⟨s, hs⟩ := Option.isSome_iff_exists.1 this
      have h3 := Trie.subAt_size hs
      have h4 := Trie.size_pos s
      rw [e1] at h3
      simp at h3
      omega
    | succ n ih =>
      intro p hp hn
      refine ⟨_, ?_⟩
      rintro c ⟨cs, os, h1, h2⟩
      obtain ⟨c', m, e1, e2, e3⟩ := ((dumpStep_ok ht hp.1 h1).1 c).1 h2
      exact ih c ⟨Trie.look_latin1 ht e2, .inr ⟨m, e2, e3⟩⟩ (by rw [e1]; simp; omega)
  have hroot : good [] := ⟨by intro s hs; simp at hs, .inl rfl⟩
  obtain ⟨k1, outs, he⟩ := dfs_ends (hacc _ [] hroot (Nat.le_refl _)) (fun n' hr =>
    (hstep _ (Nat.le_refl _) n' (reach_dump ht hr hroot).1 (reach_dump ht hr hroot).2).2)
  refine ⟨max t.size k1, ?_⟩
  intro k hk
  have hk1 : t.size ≤ k := Nat.le_trans (Nat.le_max_left _ _) hk
  have hk2 : k1 ≤ k := Nat.le_trans (Nat.le_max_right _ _) hk
  refine ⟨outs, ?_⟩
  unfold remapDump
  rw [dumpLoop_dfs]
  have hcongr : ∀ fuel (stack : List Path) acc, (∀ p ∈ stack, good p) →
      dfs (dumpStep t k) fuel stack acc = dfs (dumpStep t t.size) fuel stack acc := by
    intro fuel
    induction fuel with
    | zero => intro stack acc _; cases stack <;> rfl
    | succ fuel ih =>
      intro stack acc hst
      cases stack with
      | nil => rfl
      | cons p stack =>
        have hp := hst p (by simp)
        obtain ⟨f1, cs, os, f2⟩ := hstep k hk1 p hp.1 hp.2
        rw [dfs, dfs, f1, f2, Res.ok_bind, Res.ok_bind]
        refine ih _ _ ?_
        intro c hc
        rcases List.mem_append.1 hc with hc | hc
        · obtain ⟨n, m, e1, e2, e3⟩ := ((dumpStep_ok ht hp.1 f2).1 c).1 hc
          exact ⟨Trie.look_latin1 ht e2, .inr ⟨m, e2, e3⟩⟩
        · exact hst c (by simp [hc])
  rw [hcongr _ _ _ (by intro p hp; rw [List.mem_singleton] at hp; rw [hp]; exact hroot)]
  have := he (k - k1) [] []
  rw [Nat.add_sub_cancel' hk2] at this
  rw [this]
  cases k - k1 <;> simp [dfs]

end

end Xdvdfs
