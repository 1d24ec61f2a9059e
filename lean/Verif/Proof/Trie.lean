import Verif.Spec.Trie

/-!
# The path index refines a map
-/

namespace Xdvdfs

open Spec

namespace Trie

variable {α β : Type}

/-- Every node has 256 slots. -/
inductive WF : Trie α → Prop
  | node {ks r} : ks.length = 256 → (∀ u, some u ∈ ks → WF u) → (∀ v s, r = some (v, s) → WF s) →
      WF (node ks r)

theorem WF.len {t : Trie α} (h : WF t) : t.kids.length = 256 := by cases h; assumption
theorem WF.kid {t : Trie α} (h : WF t) {u : Trie α} (hu : some u ∈ t.kids) : WF u := by
  cases h with | node _ h _ => exact h u hu
theorem WF.sub {t : Trie α} (h : WF t) {v : α} {s : Trie α} (hu : t.record = some (v, s)) : WF s := by
  cases h with | node _ _ h => exact h v s hu

theorem wf_empty : WF (empty : Trie α) := by
  refine .node List.length_replicate ?_ ?_
  · intro u hu
    have := List.eq_of_mem_replicate hu
    cases this
  · intro v s h; cases h

/-- The node reached by a name. -/
def nodeAt : Str → Trie α → Option (Trie α)
  | [], t => some t
  | c :: cs, t => match t.kids[c.toNat]? with
    | some (some u) => nodeAt cs u
    | _ => none

/-- The record of a name. -/
def recAt (n : Str) (t : Trie α) : Option (α × Trie α) := (nodeAt n t).bind record

/-- The value of a path. -/
def look : Path → Trie α → Option α
  | [], _ => none
  | [c], t => (recAt c t).map Prod.fst
  | c :: d :: ds, t => match recAt c t with
    | none => none
    | some (_, s) => look (d :: ds) s

/-- The subdirectory tree of a path. -/
def subAt : Path → Trie α → Option (Trie α)
  | [], t => some t
  | c :: cs, t => match recAt c t with
    | none => none
    | some (_, s) => subAt cs s

theorem walkName_eq : ∀ {n : Str} {t : Trie α}, WF t → Latin1 n → walkName n t = .ok (nodeAt n t) := by
  intro n
  induction n with
  | nil => intro t _ _; rfl
  | cons c cs ih =>
    intro t ht hn
    have hc : c.toNat < t.kids.length := by rw [ht.len]; exact hn c (by simp)
    simp only [walkName, child, nodeAt]
    rw [List.getElem?_eq_getElem hc]
    simp only [Res.unwrap_some, Res.ok_bind]
    cases hk : t.kids[c.toNat] with
    | none => rfl
    | some u =>
      exact ih (ht.kid (by rw [← hk]; exact List.getElem_mem _)) (fun x hx => hn x (by simp [hx]))

theorem nodeAt_wf : ∀ {n : Str} {t u : Trie α}, WF t → nodeAt n t = some u → WF u := by
  intro n
  induction n with
  | nil => intro t u ht h; cases h; exact ht
  | cons c cs ih =>
    intro t u ht h
    simp only [nodeAt] at h
    split at h
    · next w hw => exact ih (ht.kid (List.mem_of_getElem? hw)) h
    · cases h

theorem recAt_wf {n : Str} {t s : Trie α} {v : α} (ht : WF t) (h : recAt n t = some (v, s)) : WF s := by
  unfold recAt at h
  cases hn : nodeAt n t with
  | none => rw [hn] at h; cases h
  | some u => rw [hn] at h; exact (nodeAt_wf ht hn).sub h

theorem lookupNode_rec : ∀ {p : Path} {t : Trie α}, WF t → Latin1Path p → p ≠ [] →
    ∃ u, lookupNode p t = .ok u ∧ (u.bind record).map Prod.fst = look p t := by
  intro p
  induction p with
  | nil => intro t _ _ h; exact absurd rfl h
  | cons c cs ih =>
    intro t ht hp _
    have hw := walkName_eq ht (hp c (by simp))
    cases cs with
    | nil =>
      simp only [lookupNode, hw, look]
      exact ⟨_, rfl, rfl⟩
    | cons d ds =>
      simp only [lookupNode, hw, Res.ok_bind, look]
      cases hn : nodeAt c t with
      | none => exact ⟨none, rfl, by simp [recAt, hn]⟩
      | some u =>
        have hr : recAt c t = u.record := by simp [recAt, hn]
        rw [hr]
        simp only
        cases hu : u.record with
        | none => exact ⟨none, rfl, rfl⟩
        | some x =>
          obtain ⟨v, s⟩ := x
          simp only
          exact ih (recAt_wf ht (hr.trans hu)) (fun x hx => hp x (List.mem_cons_of_mem _ hx)) (by simp)

theorem get_eq {p : Path} {t : Trie α} (ht : WF t) (hp : Latin1Path p) (h0 : p ≠ []) :
    t.get p = .ok (look p t) := by
  obtain ⟨u, h1, h2⟩ := lookupNode_rec ht hp h0
  simp only [Trie.get, h1, Res.ok_bind]
  cases u with
  | none => rw [← h2]; rfl
  | some u => rw [← h2]; rfl

theorem lookupSubdir_eq : ∀ {p : Path} {t : Trie α}, WF t → Latin1Path p →
    lookupSubdir p t = .ok (subAt p t) := by
  intro p
  induction p with
  | nil => intro t _ _; rfl
  | cons c cs ih =>
    intro t ht hp
    simp only [lookupSubdir, walkName_eq ht (hp c (by simp)), Res.ok_bind, subAt]
    cases hn : nodeAt c t with
    | none => simp [recAt, hn]
    | some u =>
      have hr : recAt c t = u.record := by simp [recAt, hn]
      rw [hr]
      simp only
      cases hu : u.record with
      | none => rfl
      | some x =>
        obtain ⟨v, s⟩ := x
        exact ih (recAt_wf ht (hr.trans hu)) (fun x hx => hp x (List.mem_cons_of_mem _ hx))

/-! ## Names -/

theorem nodeAt_empty : ∀ (n : Str), (nodeAt n (empty : Trie α)) = if n = [] then some empty else none := by
  intro n
  cases n with
  | nil => rfl
  | cons c cs =>
    simp only [nodeAt, empty, kids, List.getElem?_replicate]
    split
    · next h => split at h <;> cases h
    · rfl

theorem recAt_empty (n : Str) : recAt n (empty : Trie α) = none := by
  unfold recAt
  rw [nodeAt_empty]
  split <;> rfl

theorem look_empty (p : Path) : look p (empty : Trie α) = none := by
  match p with
  | [] => rfl
  | [c] => simp [look, recAt_empty]
  | c :: d :: ds => simp [look, recAt_empty]

theorem nodeAt_cons (c : Char) (cs : Str) (ks : List (Option (Trie α))) (r : Option (α × Trie α)) :
    nodeAt (c :: cs) (node ks r) = match ks[c.toNat]? with
      | some (some u) => nodeAt cs u
      | _ => none := rfl

theorem recAt_cons (c : Char) (cs : Str) (ks : List (Option (Trie α))) (r : Option (α × Trie α)) :
    recAt (c :: cs) (node ks r) = match ks[c.toNat]? with
      | some (some u) => recAt cs u
      | _ => none := by
  unfold recAt
  rw [nodeAt_cons]
  split <;> rfl

/-- What inserting a name does. -/
def InsSpec (val : α) (f : Trie α → Res (Trie α)) (n : Str) (t : Trie α) : Prop :=
    (∃ v s s', (recAt n t = some (v, s) ∨ recAt n t = none ∧ v = val ∧ s = empty) ∧
      WF s ∧ f s = .ok s' ∧ ∃ t', insertTailWith val f n t = .ok t' ∧ WF t' ∧
        ∀ m, recAt m t' = if m = n then some (v, s') else recAt m t) ∨
    (∃ v s, (recAt n t = some (v, s) ∨ recAt n t = none ∧ v = val ∧ s = empty) ∧ WF s ∧
      (∀ s', f s ≠ .ok s') ∧ ((f s).Returns → (insertTailWith val f n t).Returns) ∧
      ∀ t', insertTailWith val f n t ≠ .ok t')

theorem insertTailWith_spec {val : α} {f : Trie α → Res (Trie α)}
    (hf : ∀ s s', WF s → f s = .ok s' → WF s') : ∀ {n : Str} {t : Trie α}, WF t →
    Latin1 n → InsSpec val f n t := by
  intro n
  induction n with
  | nil =>
    intro t ht _
    unfold InsSpec
    obtain ⟨ks, r⟩ := t
    cases r with
    | none =>
      simp only [insertTailWith]
      cases hfs : f (empty : Trie α) with
      | ok s' =>
        left
        refine ⟨val, empty, s', .inr ⟨rfl, rfl, rfl⟩, wf_empty, hfs, _, rfl, ?_, ?_⟩
        · exact .node ht.len (fun u hu => ht.kid hu) (fun v s h => by cases h; exact hf _ _ wf_empty hfs)
        · intro m
          cases m with
          | nil => rfl
          | cons c cs => rw [if_neg (by simp), recAt_cons, recAt_cons]
      | err e => exact .inr ⟨val, empty, .inr ⟨rfl, rfl, rfl⟩, wf_empty, by simp [hfs], by simp [hfs, Res.Returns], by simp⟩
      | panic => exact .inr ⟨val, empty, .inr ⟨rfl, rfl, rfl⟩, wf_empty, by simp [hfs], by simp [hfs, Res.Returns], by simp⟩
      | hang => exact .inr ⟨val, empty, .inr ⟨rfl, rfl, rfl⟩, wf_empty, by simp [hfs], by simp [hfs, Res.Returns], by simp⟩
    | some x =>
      obtain ⟨v, s⟩ := x
      have hs : WF s := ht.sub rfl
      simp only [insertTailWith]
      cases hfs : f s with
      | ok s' =>
        left
        refine ⟨v, s, s', .inl rfl, hs, hfs, _, rfl, ?_, ?_⟩
        · exact .node ht.len (fun u hu => ht.kid hu) (fun v s h => by cases h; exact hf _ _ hs hfs)
        · intro m
          cases m with
          | nil => rfl
          | cons c cs => rw [if_neg (by simp), recAt_cons, recAt_cons]
      | err e => exact .inr ⟨v, s, .inl rfl, hs, by simp [hfs], by simp [hfs, Res.Returns], by simp⟩
      | panic => exact .inr ⟨v, s, .inl rfl, hs, by simp [hfs], by simp [hfs, Res.Returns], by simp⟩
      | hang => exact .inr ⟨v, s, .inl rfl, hs, by simp [hfs], by simp [hfs, Res.Returns], by simp⟩
  | cons c cs ih =>
    intro t ht hn
    obtain ⟨ks, r⟩ := t
    have hc : c.toNat < ks.length := by have := ht.len; simp only [kids] at this; rw [this]; exact hn c (by simp)
    have key : ∀ (u : Trie α), WF u → (∀ m, recAt m u = match ks[c.toNat]? with
          | some (some u) => recAt m u
          | _ => none) →
        insertTailWith val f (c :: cs) (node ks r) = (do
          let u ← insertTailWith val f cs u
          .ok (node (ks.set c.toNat (some u)) r)) → InsSpec val f (c :: cs) (node ks r) := by
      intro u hu hrec hins
      unfold InsSpec
      have hrc : recAt (c :: cs) (node ks r) = recAt cs u := by rw [recAt_cons, hrec]
      rw [hrc]
      rcases ih hu (fun x hx => hn x (by simp [hx])) with
        ⟨v, s, s', h1, h2, h3, u', h4, h5, h6⟩ | ⟨v, s, h1, h2, h3, h4, h5⟩
      · left
        refine ⟨v, s, s', h1, h2, h3, node (ks.set c.toNat (some u')) r, by rw [hins, h4]; rfl, ?_, ?_⟩
        · refine .node (by rw [List.length_set]; exact ht.len) ?_ (fun v s h => ht.sub h)
          intro w hw
          rcases List.mem_or_eq_of_mem_set hw with hw | hw
          · exact ht.kid hw
          · cases hw; exact h5
        · intro m
          cases m with
          | nil => rw [if_neg (by simp)]; rfl
          | cons d ds =>
            rw [recAt_cons, List.getElem?_set]
            by_cases hcd : c.toNat = d.toNat
            · have hcd' : c = d := Char.toNat_inj.1 hcd
              subst hcd'
              rw [if_pos rfl, if_pos hc]
              simp only
              rw [h6, recAt_cons, ← hrec]
              simp
            · have hcd' : ¬ (d :: ds = c :: cs) := by
                intro he; cases he; exact hcd rfl
              rw [if_neg hcd, if_neg hcd', recAt_cons]
      · right
        refine ⟨v, s, h1, h2, h3, ?_, ?_⟩
        · intro hr
          have := h4 hr
          rw [hins]
          cases hx : insertTailWith val f cs u with
          | ok a => exact absurd hx (h5 a)
          | err e => simp [Res.Returns]
          | panic => rw [hx] at this; exact absurd rfl this.1
          | hang => rw [hx] at this; exact absurd rfl this.2
        · intro t' ht'
          rw [hins] at ht'
          obtain ⟨a, ha, _⟩ := Res.bind_eq_ok.1 ht'
          exact h5 a ha
    have hg : ks[c.toNat]? = some ks[c.toNat] := List.getElem?_eq_getElem hc
    cases hk : ks[c.toNat] with
    | none =>
      rw [hk] at hg
      refine key empty wf_empty ?_ (by simp only [insertTailWith, hg])
      intro m; rw [hg, recAt_empty]
    | some u =>
      rw [hk] at hg
      exact key u (ht.kid (List.mem_of_getElem? hg)) (by intro m; rw [hg]) (by simp only [insertTailWith, hg])


/-- `insert_tail` on a well-formed tree. -/
theorem insertTail_spec {t : Trie α} (ht : WF t) {n : Str} (hn : Latin1 n) (val : α) :
    ∃ v s t', (recAt n t = some (v, s) ∨ recAt n t = none ∧ v = val ∧ s = empty) ∧
      insertTail n val t = .ok t' ∧ WF t' ∧
        ∀ m, recAt m t' = if m = n then some (v, s) else recAt m t := by
  rcases insertTailWith_spec (val := val) (f := Res.ok) (fun s s' hs h => by cases h; exact hs) ht hn with
    ⟨v, s, s', h1, _, h3, t', h4, h5, h6⟩ | ⟨_, s, _, _, h, _⟩
  · cases h3
    exact ⟨v, s, t', h1, h4, h5, h6⟩
  · exact absurd rfl (h s)

theorem look_insertTail {t : Trie α} (ht : WF t) {n : Str} (hn : Latin1 n) (val : α) :
    ∃ t', insertTail n val t = .ok t' ∧ WF t' ∧
      ∀ q, look q t' = if q = [n] ∧ look [n] t = none then some val else look q t := by
  obtain ⟨v, s, t', h1, h2, h3, h4⟩ := insertTail_spec ht hn val
  refine ⟨t', h2, h3, ?_⟩
  intro q
  match q with
  | [] => simp [look]
  | [c] =>
    simp only [look, h4]
    by_cases hc : c = n
    · subst hc
      rcases h1 with h1 | ⟨h1, rfl, rfl⟩ <;> simp [h1]
    · simp [hc]
  | c :: d :: ds =>
    simp only [look, h4]
    by_cases hc : c = n
    · subst hc
      rcases h1 with h1 | ⟨h1, rfl, rfl⟩ <;> simp [h1, look_empty]
    · simp [hc]

/-! ## Updating a directory -/

theorem modifyName_spec {f : Trie α → Res (Option (Trie α × β))} : ∀ {n : Str} {t : Trie α}, WF t → Latin1 n →
    (nodeAt n t = none → modifyName f n t = .ok none) ∧
    ∀ u, nodeAt n t = some u → (f u = .ok none → modifyName f n t = .ok none) ∧
      ∀ u' b, f u = .ok (some (u', b)) → WF u' → u'.kids = u.kids →
        ∃ t', modifyName f n t = .ok (some (t', b)) ∧ WF t' ∧
          ∀ m, recAt m t' = if m = n then u'.record else recAt m t := by
  intro n
  induction n with
  | nil =>
    intro t ht _
    refine ⟨by simp [nodeAt], ?_⟩
    intro u hu
    cases hu
    refine ⟨fun h => h, ?_⟩
    intro u' b h hw hk
    refine ⟨u', h, hw, ?_⟩
    intro m
    cases m with
    | nil => rfl
    | cons c cs =>
      obtain ⟨ks, r⟩ := t
      obtain ⟨ks', r'⟩ := u'
      simp only [kids] at hk
      subst hk
      rw [if_neg (by simp), recAt_cons, recAt_cons]
  | cons c cs ih =>
    intro t ht hn
    obtain ⟨ks, r⟩ := t
    have hc : c.toNat < ks.length := by have := ht.len; simp only [kids] at this; rw [this]; exact hn c (by simp)
    have hg : ks[c.toNat]? = some ks[c.toNat] := List.getElem?_eq_getElem hc
    have hcs : Latin1 cs := fun x hx => hn x (by simp [hx])
    rw [nodeAt_cons]
    simp only [modifyName]
    cases hk : ks[c.toNat] with
    | none =>
      rw [hk] at hg
      rw [hg]
      exact ⟨fun _ => rfl, fun u h => by cases h⟩
    | some w =>
      rw [hk] at hg
      rw [hg]
      have hw : WF w := ht.kid (List.mem_of_getElem? hg)
      obtain ⟨i1, i2⟩ := ih hw hcs
      simp only
      refine ⟨fun h => by rw [i1 h]; rfl, ?_⟩
      intro u hu
      obtain ⟨i3, i4⟩ := i2 u hu
      refine ⟨fun h => by rw [i3 h]; rfl, ?_⟩
      intro u' b hf hwu hku
      obtain ⟨w', h1, h2, h3⟩ := i4 u' b hf hwu hku
      refine ⟨node (ks.set c.toNat (some w')) r, by rw [h1]; rfl, ?_, ?_⟩
      · refine .node (by rw [List.length_set]; exact ht.len) ?_ (fun v s h => ht.sub h)
        intro x hx
        rcases List.mem_or_eq_of_mem_set hx with hx | hx
        · exact ht.kid hx
        · cases hx; exact h2
      · intro m
        cases m with
        | nil => rw [if_neg (by simp)]; rfl
        | cons d ds =>
          rw [recAt_cons, List.getElem?_set]
          by_cases hcd : c.toNat = d.toNat
          · have hcd' : c = d := Char.toNat_inj.1 hcd
            subst hcd'
            rw [if_pos rfl, if_pos hc]
            simp only
            rw [h3, recAt_cons, hg]
            simp
          · have hcd' : ¬ (d :: ds = c :: cs) := by
              intro he; cases he; exact hcd rfl
            rw [if_neg hcd, if_neg hcd', recAt_cons]

/-- Updating the subtree of one name. -/
theorem modifyAt_spec {g : α → Trie α → Res (Option (Trie α × β))} {n : Str} {t : Trie α} (ht : WF t)
    (hn : Latin1 n) :
    (recAt n t = none → modifyName (modifyRecord g) n t = .ok none) ∧
    ∀ v s, recAt n t = some (v, s) → (g v s = .ok none → modifyName (modifyRecord g) n t = .ok none) ∧
      ∀ s' b, g v s = .ok (some (s', b)) → WF s' →
        ∃ t', modifyName (modifyRecord g) n t = .ok (some (t', b)) ∧ WF t' ∧
          ∀ m, recAt m t' = if m = n then some (v, s') else recAt m t := by
  obtain ⟨i1, i2⟩ := modifyName_spec (f := modifyRecord g) ht hn
  refine ⟨?_, ?_⟩
  · intro h
    unfold recAt at h
    cases hu : nodeAt n t with
    | none => exact i1 hu
    | some u =>
      rw [hu] at h
      refine (i2 u hu).1 ?_
      obtain ⟨ks, r⟩ := u
      cases r with
      | none => rfl
      | some x => cases h
  · intro v s h
    unfold recAt at h
    cases hu : nodeAt n t with
    | none => rw [hu] at h; cases h
    | some u =>
      rw [hu] at h
      have hwu := nodeAt_wf ht hu
      obtain ⟨i3, i4⟩ := i2 u hu
      obtain ⟨ks, r⟩ := u
      have hr : r = some (v, s) := h
      subst hr
      refine ⟨fun hg => i3 (by simp only [modifyRecord, hg, Res.ok_bind]), ?_⟩
      intro s' b hg hs'
      exact i4 (node ks (some (v, s'))) b (by simp only [modifyRecord, hg, Res.ok_bind])
        (.node hwu.len (fun x hx => hwu.kid hx) (fun _ _ h => by cases h; exact hs')) rfl

theorem look_append : ∀ {p : Path} {t s : Trie α}, subAt p t = some s → ∀ r, r ≠ [] →
    look (p ++ r) t = look r s := by
  intro p
  induction p with
  | nil => intro t s h r _; cases h; rfl
  | cons c cs ih =>
    intro t s h r hr
    simp only [subAt] at h
    cases hc : recAt c t with
    | none => rw [hc] at h; cases h
    | some x =>
      obtain ⟨v, s1⟩ := x
      rw [hc] at h
      rw [← ih h r hr]
      have : cs ++ r ≠ [] := by simp [hr]
      obtain ⟨d, ds, hd⟩ := List.exists_cons_of_ne_nil this
      rw [List.cons_append, hd]
      simp [look, hc]

theorem subAt_wf : ∀ {p : Path} {t s : Trie α}, WF t → subAt p t = some s → WF s := by
  intro p
  induction p with
  | nil => intro t s ht h; cases h; exact ht
  | cons c cs ih =>
    intro t s ht h
    simp only [subAt] at h
    cases hc : recAt c t with
    | none => rw [hc] at h; cases h
    | some x =>
      obtain ⟨v, s1⟩ := x
      rw [hc] at h
      exact ih (recAt_wf ht hc) h

/-- A path other than the root is present exactly if it has a subtree. -/
theorem subAt_isSome : ∀ {p : Path} {t : Trie α}, p ≠ [] → ((subAt p t).isSome = (look p t).isSome) := by
  intro p
  induction p with
  | nil => intro t h; exact absurd rfl h
  | cons c cs ih =>
    intro t _
    cases cs with
    | nil => simp only [subAt, look]; cases recAt c t <;> rfl
    | cons d ds =>
      simp only [subAt, look]
      cases hc : recAt c t with
      | none => rfl
      | some x => exact ih (by simp)

theorem modifyDir_spec {g : α → Trie α → Res (Option (Trie α × β))} : ∀ {p : Path} {t : Trie α}, WF t →
    Latin1Path p → p ≠ [] →
    (look p t = none → modifyDir g p t = .ok none) ∧
    ∀ v s s' b, look p t = some v → subAt p t = some s → g v s = .ok (some (s', b)) → WF s' →
      ∃ t', modifyDir g p t = .ok (some (t', b)) ∧ WF t' ∧
        (∀ r, r ≠ [] → look (p ++ r) t' = look r s') ∧
        ∀ q, (∀ r, r ≠ [] → q ≠ p ++ r) → look q t' = look q t := by
  intro p
  induction p with
  | nil => intro t _ _ h; exact absurd rfl h
  | cons c cs ih =>
    intro t ht hp _
    have hc : Latin1 c := hp c (by simp)
    cases cs with
    | nil =>
      obtain ⟨i1, i2⟩ := modifyAt_spec (g := g) ht hc
      refine ⟨fun h => i1 ?_, ?_⟩
      · simp only [look] at h
        simpa using h
      · intro v s s' b hl hs hg hw
        simp only [subAt] at hs
        simp only [look] at hl
        cases hr : recAt c t with
        | none => rw [hr] at hl; cases hl
        | some x =>
          obtain ⟨v1, s1⟩ := x
          rw [hr] at hl hs
          cases hl; cases hs
          obtain ⟨t', h1, h2, h3⟩ := (i2 _ _ hr).2 s' b hg hw
          refine ⟨t', h1, h2, ?_, ?_⟩
          · intro r hr0
            obtain ⟨d, ds, rfl⟩ := List.exists_cons_of_ne_nil hr0
            simp [look, h3]
          · intro q hq
            match q with
            | [] => rfl
            | [e] =>
              simp only [look, h3]
              by_cases he : e = c
              · subst he; simp [hr]
              · simp [he]
            | e :: d :: ds =>
              simp only [look, h3]
              by_cases he : e = c
              · subst he; exact absurd rfl (hq (d :: ds) (by simp))
              · simp [he]
    | cons d ds =>
      obtain ⟨i1, i2⟩ := modifyAt_spec (g := fun (_ : α) s => modifyDir g (d :: ds) s) ht hc
      have hp' : Latin1Path (d :: ds) := fun x hx => hp x (List.mem_cons_of_mem _ hx)
      refine ⟨?_, ?_⟩
      · intro hl
        simp only [look] at hl
        cases hr : recAt c t with
        | none => exact i1 hr
        | some x =>
          obtain ⟨v1, s1⟩ := x
          rw [hr] at hl
          exact (i2 _ _ hr).1 ((ih (recAt_wf ht hr) hp' (by simp)).1 hl)
      · intro v s s' b hl hs hg hw
        simp only [look] at hl
        simp only [subAt] at hs
        cases hr : recAt c t with
        | none => rw [hr] at hl; cases hl
        | some x =>
          obtain ⟨v1, s1⟩ := x
          rw [hr] at hl hs
          simp only at hl hs
          obtain ⟨s1', j1, j2, j3, j4⟩ := (ih (recAt_wf ht hr) hp' (by simp)).2 v s s' b hl hs hg hw
          obtain ⟨t', h1, h2, h3⟩ := (i2 _ _ hr).2 s1' b j1 j2
          refine ⟨t', h1, h2, ?_, ?_⟩
          · intro r hr0
            simp only [List.cons_append, look, h3]
            rw [if_pos trivial]
            exact j3 r hr0
          · intro q hq
            match q with
            | [] => rfl
            | [e] =>
              simp only [look, h3]
              by_cases he : e = c
              · subst he; simp [hr]
              · simp [he]
            | e :: d' :: ds' =>
              simp only [look, h3]
              by_cases he : e = c
              · subst he
                rw [if_pos rfl, hr]
                simp only
                exact j4 _ (fun r hr0 hx => hq r hr0 (by rw [hx]; rfl))
              · simp [he]

theorem insertAt_spec {t : Trie α} (ht : WF t) {dir : Path} (hd : Latin1Path dir) {n : Str} (hn : Latin1 n)
    (val : α) :
    (dir ≠ [] → look dir t = none → insertAt dir n val t = .ok none) ∧
    (dir = [] ∨ look dir t ≠ none → ∃ t', insertAt dir n val t = .ok (some t') ∧ WF t' ∧
      ∀ q, look q t' = if q = dir ++ [n] ∧ look q t = none then some val else look q t) := by
  unfold insertAt
  refine ⟨?_, ?_⟩
  · intro h0 hl
    rw [if_neg h0, (modifyDir_spec ht hd h0).1 hl]
    rfl
  · intro h
    by_cases h0 : dir = []
    · subst h0
      obtain ⟨t', h1, h2, h3⟩ := look_insertTail ht hn val
      refine ⟨t', by rw [if_pos rfl, h1]; rfl, h2, ?_⟩
      intro q
      rw [h3, List.nil_append]
      by_cases hq : q = [n]
      · subst hq; rfl
      · simp [hq]
    · have hl : look dir t ≠ none := by rcases h with h | h; exact absurd h h0; exact h
      obtain ⟨v, hv⟩ := Option.ne_none_iff_exists'.1 hl
      have hsome := subAt_isSome (t := t) h0
      rw [hv] at hsome
      obtain ⟨s, hs⟩ := Option.isSome_iff_exists.1 hsome
      obtain ⟨s', h1, h2, h3⟩ := look_insertTail (subAt_wf ht hs) hn val
      obtain ⟨t', j1, j2, j3, j4⟩ := (modifyDir_spec (g := fun (_ : α) s => do
        let s ← s.insertTail n val
        .ok (some (s, ()))) ht hd h0).2 v s s' () hv hs (by rw [h1]; rfl) h2
      refine ⟨t', by rw [if_neg h0, j1]; rfl, j2, ?_⟩
      intro q
      by_cases hq : ∃ r, r ≠ [] ∧ q = dir ++ r
      · obtain ⟨r, hr, rfl⟩ := hq
        rw [j3 r hr, h3, look_append hs r hr]
        by_cases hrn : r = [n]
        · subst hrn; simp
        · simp [hrn]
      · rw [j4 q (fun r hr hx => hq ⟨r, hr, hx⟩)]
        rw [if_neg]
        rintro ⟨rfl, _⟩
        exact hq ⟨[n], by simp, rfl⟩

/-! ## Histories -/

theorem lookupPath_append (p : Path) (m : List (Path × α)) (k : Path) (v : α) :
    lookupPath p (m ++ [(k, v)]) = if p = k ∧ lookupPath p m = none then some v else lookupPath p m := by
  unfold lookupPath
  rw [List.find?_append]
  cases h : m.find? (fun x => x.1 == p) with
  | some x => simp
  | none =>
    simp only [Option.none_or, Option.map_none, and_true]
    by_cases hk : p = k
    · subst hk; simp
    · simp [hk, Ne.symm hk]

theorem lookupPath_none {p : Path} {m : List (Path × α)} : lookupPath p m = none ↔ p ∉ m.map Prod.fst := by
  unfold lookupPath
  rw [Option.map_eq_none_iff, List.find?_eq_none]
  simp only [List.mem_map, not_exists, not_and, beq_iff_eq]

/-- The tree represents the map. -/
def Rep (t : Trie α) (m : List (Path × α)) : Prop := WF t ∧ ∀ q, q ≠ [] → look q t = lookupPath q m

theorem rep_empty : Rep (empty : Trie α) [] := ⟨wf_empty, fun q _ => look_empty q⟩

theorem runInsertions_rep : ∀ (h : List (Insertion α)) (t : Trie α) (m : List (Path × α)), Latin1History h →
    Rep t m → ∃ t', runInsertions h t = .ok t' ∧
      Rep t' (h.foldl (fun m x => if HasDir m x.1 then m ++ [(x.1 ++ [x.2.1], x.2.2)] else m) m) := by
  intro h
  induction h with
  | nil => intro t m _ hr; exact ⟨t, rfl, hr⟩
  | cons x rest ih =>
    intro t m hl hr
    obtain ⟨dir, n, v⟩ := x
    have hx := hl _ List.mem_cons_self
    simp only at hx
    have hl' : Latin1History rest := fun y hy => hl y (List.mem_cons_of_mem _ hy)
    obtain ⟨i1, i2⟩ := insertAt_spec hr.1 hx.1 hx.2 v
    simp only [runInsertions, List.foldl_cons]
    by_cases hd : HasDir m dir
    · rw [if_pos hd]
      have : dir = [] ∨ look dir t ≠ none := by
        by_cases h0 : dir = []
        · exact .inl h0
        · right
          rw [hr.2 dir h0]
          intro hc
          rcases hd with hd | hd
          · exact h0 hd
          · exact lookupPath_none.1 hc hd
      obtain ⟨t', h1, h2, h3⟩ := i2 this
      rw [h1]
      refine ih t' _ hl' ⟨h2, ?_⟩
      intro q hq
      rw [h3, hr.2 q hq, lookupPath_append]
    · rw [if_neg hd]
      have h0 : dir ≠ [] := fun h => hd (.inl h)
      rw [i1 h0 (by rw [hr.2 dir h0]; exact lookupPath_none.2 (fun h => hd (.inr h)))]
      exact ih t m hl' hr

/-! ## Iteration -/

theorem mem_pushKids {name : Str} {m : Str} {u : Trie α} : ∀ {ks : List (Option (Trie α))} {i : Nat},
    (m, u) ∈ pushKids name i ks ↔ ∃ j, ks[j]? = some (some u) ∧ m = name ++ [Char.ofNat (i + j)] := by
  intro ks
  induction ks with
  | nil => intro i; simp [pushKids]
  | cons k ks ih =>
    intro i
    cases k with
    | none =>
      simp only [pushKids]
      rw [ih]
      constructor
      · rintro ⟨j, h1, h2⟩; exact ⟨j + 1, by simpa using h1, by rw [h2]; congr 3; omega⟩
      · rintro ⟨j, h1, h2⟩
        cases j with
        | zero => simp at h1
        | succ j => exact ⟨j, by simpa using h1, by rw [h2]; congr 3; omega⟩
    | some w =>
      simp only [pushKids, List.mem_cons]
      rw [ih]
      constructor
      · rintro (h | ⟨j, h1, h2⟩)
        · cases h; exact ⟨0, by simp, by simp⟩
        · exact ⟨j + 1, by simpa using h1, by rw [h2]; congr 3; omega⟩
      · rintro ⟨j, h1, h2⟩
        cases j with
        | zero => left; simp at h1; simp [h1, h2]
        | succ j => right; exact ⟨j, by simpa using h1, by rw [h2]; congr 3; omega⟩


theorem pushKids_size (name : Str) : ∀ (ks : List (Option (Trie α))) (i : Nat),
    ((pushKids name i ks).map (fun x => sizeOf x.2)).sum < sizeOf ks := by
  intro ks
  induction ks with
  | nil => intro i; simp [pushKids]
  | cons k ks ih =>
    intro i
    have := ih (i + 1)
    cases k with
    | none => simp only [pushKids, List.cons.sizeOf_spec]; omega
    | some w => simp only [pushKids, List.cons.sizeOf_spec, Option.some.sizeOf_spec, List.map_cons, List.sum_cons]; omega

theorem ofNat_toNat_of_lt {j : Nat} (h : j < 256) : (Char.ofNat j).toNat = j := by
  have : j.isValidChar := by left; omega
  rw [Char.ofNat, dif_pos this]
  rfl

/-- No name below `a` is below `b`. -/
def Apart (a b : Str × Trie α) : Prop := ∀ s1 s2, a.1 ++ s1 ≠ b.1 ++ s2

theorem Apart.symm {a b : Str × Trie α} (h : Apart a b) : Apart b a := fun s1 s2 he => h s2 s1 he.symm

theorem pushKids_apart (name : Str) : ∀ (ks : List (Option (Trie α))) (i : Nat), i + ks.length ≤ 256 →
    (pushKids name i ks).Pairwise Apart := by
  intro ks
  induction ks with
  | nil => intro i _; exact .nil
  | cons k ks ih =>
    intro i hi
    simp only [List.length_cons] at hi
    cases k with
    | none => exact ih (i + 1) (by omega)
    | some w =>
      simp only [pushKids]
      refine .cons ?_ (ih (i + 1) (by omega))
      rintro ⟨m, u⟩ hm s1 s2 he
      obtain ⟨j, hj, rfl⟩ := mem_pushKids.1 hm
      have hjl : j < ks.length := (List.getElem?_eq_some_iff.1 hj).1
      simp only [List.append_assoc, List.cons_append, List.nil_append, List.append_cancel_left_eq,
        List.cons.injEq] at he
      have := congrArg Char.toNat he.1
      rw [ofNat_toNat_of_lt (by omega), ofNat_toNat_of_lt (by omega)] at this
      omega

theorem iterLoop_spec : ∀ (fuel : Nat) (queue : List (Str × Trie α)) (out : List (Str × α)),
    (queue.map (fun x => sizeOf x.2)).sum ≤ fuel → (∀ x ∈ queue, WF x.2) → queue.Pairwise Apart →
    ∃ res, iterLoop fuel queue out = .ok (out.reverse ++ res) ∧
      (∀ m v, (m, v) ∈ res ↔ ∃ n u suf, (n, u) ∈ queue ∧ m = n ++ suf ∧
        (recAt suf u).map Prod.fst = some v) ∧ (res.map Prod.fst).Nodup := by
  intro fuel
  induction fuel with
  | zero =>
    intro queue out hs hw hd
    cases queue with
    | nil => exact ⟨[], by simp [iterLoop], by simp, .nil⟩
    | cons x q =>
      obtain ⟨n, t⟩ := x
      obtain ⟨ks, r⟩ := t
      simp only [List.map_cons, List.sum_cons, node.sizeOf_spec] at hs
      omega
  | succ fuel ih =>
    intro queue out hs hw hd
    cases queue with
    | nil => exact ⟨[], by simp [iterLoop], by simp, .nil⟩
    | cons x q =>
      obtain ⟨n, t⟩ := x
      obtain ⟨ks, r⟩ := t
      have hwt : WF (node ks r) := hw _ List.mem_cons_self
      have hlen : ks.length = 256 := hwt.len
      have hps := pushKids_size n ks 0
      rw [List.pairwise_cons] at hd
      have hq' : ∀ x, x ∈ (pushKids n 0 ks).reverse ++ q ↔ x ∈ pushKids n 0 ks ∨ x ∈ q := by
        intro x; rw [List.mem_append, List.mem_reverse]
      have hsum : (((pushKids n 0 ks).reverse ++ q).map (fun x => sizeOf x.2)).sum ≤ fuel := by
        simp only [List.map_cons, List.sum_cons, node.sizeOf_spec] at hs
        rw [List.map_append, List.sum_append, List.map_reverse, List.sum_reverse]
        omega
      have hwf : ∀ x ∈ (pushKids n 0 ks).reverse ++ q, WF x.2 := by
        rintro ⟨m, u⟩ hx
        rcases (hq' _).1 hx with hx | hx
        · obtain ⟨j, hj, _⟩ := mem_pushKids.1 hx
          exact hwt.kid (List.mem_of_getElem? hj)
        · exact hw _ (List.mem_cons_of_mem _ hx)
      have hap : ((pushKids n 0 ks).reverse ++ q).Pairwise Apart := by
        rw [List.pairwise_append]
        refine ⟨?_, hd.2, ?_⟩
        · rw [List.pairwise_reverse]
          exact (pushKids_apart n ks 0 (by omega)).imp (fun h => h.symm)
        · rintro ⟨m, u⟩ hx b hb s1 s2 he
          obtain ⟨j, _, rfl⟩ := mem_pushKids.1 (List.mem_reverse.1 hx)
          exact hd.1 b hb ([Char.ofNat (0 + j)] ++ s1) s2 (by simpa using he)
      have hkids : ∀ m v, (∃ n' u suf, (n', u) ∈ pushKids n 0 ks ∧ m = n' ++ suf ∧
          (recAt suf u).map Prod.fst = some v) ↔
          ∃ suf, suf ≠ [] ∧ m = n ++ suf ∧ (recAt suf (node ks r)).map Prod.fst = some v := by
        intro m v
        constructor
        · rintro ⟨n', u, suf, hm, rfl, hv⟩
          obtain ⟨j, hj, rfl⟩ := mem_pushKids.1 hm
          have hjl : j < ks.length := (List.getElem?_eq_some_iff.1 hj).1
          refine ⟨Char.ofNat (0 + j) :: suf, by simp, by simp, ?_⟩
          rw [recAt_cons, Nat.zero_add, ofNat_toNat_of_lt (by omega), hj]
          exact hv
        · rintro ⟨suf, h0, rfl, hv⟩
          obtain ⟨c, cs, rfl⟩ := List.exists_cons_of_ne_nil h0
          rw [recAt_cons] at hv
          split at hv
          · next u hu =>
            refine ⟨n ++ [c], u, cs, mem_pushKids.2 ⟨c.toNat, hu, ?_⟩, by simp, hv⟩
            rw [Nat.zero_add, Char.ofNat_toNat]
          · cases hv
      have hmem : ∀ (res : List (Str × α)), (∀ m v, (m, v) ∈ res ↔ ∃ n' u suf,
            (n', u) ∈ (pushKids n 0 ks).reverse ++ q ∧ m = n' ++ suf ∧
            (recAt suf u).map Prod.fst = some v) → ∀ m v, (m, v) ∈ res ↔
          (∃ suf, suf ≠ [] ∧ m = n ++ suf ∧ (recAt suf (node ks r)).map Prod.fst = some v) ∨
          ∃ n' u suf, (n', u) ∈ q ∧ m = n' ++ suf ∧ (recAt suf u).map Prod.fst = some v := by
        intro res h m v
        rw [h, ← hkids]
        constructor
        · rintro ⟨n', u, suf, h1, h2⟩
          rcases (hq' _).1 h1 with h1 | h1
          · exact .inl ⟨n', u, suf, h1, h2⟩
          · exact .inr ⟨n', u, suf, h1, h2⟩
        · rintro (⟨n', u, suf, h1, h2⟩ | ⟨n', u, suf, h1, h2⟩)
          · exact ⟨n', u, suf, (hq' _).2 (.inl h1), h2⟩
          · exact ⟨n', u, suf, (hq' _).2 (.inr h1), h2⟩
      simp only [iterLoop, kids, record]
      cases r with
      | none =>
        obtain ⟨res, h1, h2, h3⟩ := ih _ out hsum hwf hap
        refine ⟨res, h1, ?_, h3⟩
        intro m v
        rw [hmem res h2]
        constructor
        · rintro (⟨suf, _, h⟩ | ⟨n', u, suf, hm, h⟩)
          · exact ⟨n, _, suf, List.mem_cons_self, h⟩
          · exact ⟨n', u, suf, List.mem_cons_of_mem _ hm, h⟩
        · rintro ⟨n', u, suf, hm, h⟩
          rcases List.mem_cons.1 hm with hm | hm
          · cases hm
            left
            refine ⟨suf, ?_, h⟩
            rintro rfl
            cases h.2
          · exact .inr ⟨n', u, suf, hm, h⟩
      | some x =>
        obtain ⟨w, sub⟩ := x
        obtain ⟨res, h1, h2, h3⟩ := ih _ ((n, w) :: out) hsum hwf hap
        refine ⟨(n, w) :: res, by simpa using h1, ?_, ?_⟩
        · intro m v
          rw [List.mem_cons, hmem res h2]
          constructor
          · rintro (h | ⟨suf, _, h⟩ | ⟨n', u, suf, hm, h⟩)
            · cases h
              exact ⟨n, _, [], List.mem_cons_self, by simp, rfl⟩
            · exact ⟨n, _, suf, List.mem_cons_self, h⟩
            · exact ⟨n', u, suf, List.mem_cons_of_mem _ hm, h⟩
          · rintro ⟨n', u, suf, hm, h⟩
            rcases List.mem_cons.1 hm with hm | hm
            · cases hm
              by_cases hs0 : suf = []
              · subst hs0
                left
                obtain ⟨h4, h5⟩ := h
                cases h5
                simp [h4]
              · exact .inr (.inl ⟨suf, hs0, h⟩)
            · exact .inr (.inr ⟨n', u, suf, hm, h⟩)
        · rw [List.map_cons, List.nodup_cons]
          refine ⟨?_, h3⟩
          intro hm
          obtain ⟨⟨m, v⟩, hmv, he⟩ := List.mem_map.1 hm
          simp only at he
          subst he
          rcases (hmem res h2 m v).1 hmv with ⟨suf, h0, h4, _⟩ | ⟨n', u, suf, h4, h5, _⟩
          · exact h0 (by simpa using h4)
          · exact hd.1 _ h4 [] suf (by simpa using h5)

theorem iterLoop_mono : ∀ (fuel : Nat) (queue : List (Str × Trie α)) (out res : List (Str × α)),
    iterLoop fuel queue out = .ok res → ∀ k, iterLoop (fuel + k) queue out = .ok res := by
  intro fuel
  induction fuel with
  | zero =>
    intro queue out res h k
    cases queue with
    | nil => simpa [iterLoop] using h
    | cons x q => cases h
  | succ fuel ih =>
    intro queue out res h k
    cases queue with
    | nil => simpa [iterLoop] using h
    | cons x q =>
      obtain ⟨n, t⟩ := x
      rw [Nat.add_right_comm]
      simp only [iterLoop] at h ⊢
      split <;> rename_i hr <;> rw [hr] at h <;> exact ih _ _ _ h k

theorem iter_spec {t : Trie α} (ht : WF t) : ∃ res, (∀ fuel, sizeOf t ≤ fuel → iter t fuel = .ok res) ∧
    (∀ m v, (m, v) ∈ res ↔ look [m] t = some v) ∧ (res.map Prod.fst).Nodup := by
  have key := fun fuel (hf : sizeOf t ≤ fuel) => iterLoop_spec fuel [([], t)] [] (by simpa using hf)
    (by simpa using ht) (by simp)
  obtain ⟨res, h1, h2, h3⟩ := key _ (Nat.le_refl _)
  refine ⟨res, ?_, ?_, h3⟩
  · intro fuel hf
    have := iterLoop_mono _ _ _ _ h1 (fuel - sizeOf t)
    rw [Nat.add_sub_cancel' hf] at this
    exact this
  · intro m v
    rw [h2]
    simp only [look]
    constructor
    · rintro ⟨n, u, suf, h, rfl, hv⟩
      rw [List.mem_singleton] at h
      cases h
      simpa using hv
    · intro h
      exact ⟨[], t, m, by simp, by simp, h⟩

end Trie

end Xdvdfs
