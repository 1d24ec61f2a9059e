import Verif.Spec.ImgFs
import Verif.Proof.Trie
import Verif.Proof.PackEnd
import Verif.Proof.PackReport

/-!
# Scanning an image through its cache equals scanning it without
-/

namespace Xdvdfs

open Spec

namespace Trie

variable {α β : Type}

theorem nodeAt_latin1 : ∀ {n : Str} {t u : Trie α}, WF t → nodeAt n t = some u → Latin1 n := by
  intro n
  induction n with
  | nil => intro t u _ _ c hc; simp at hc
  | cons c cs ih =>
    intro t u ht h
    simp only [nodeAt] at h
    split at h
    · rename_i u' hk
      have hlt : c.toNat < t.kids.length := by
        obtain ⟨hh, _⟩ := List.getElem?_eq_some_iff.1 hk; exact hh
      rw [ht.len] at hlt
      intro x hx
      rcases List.mem_cons.1 hx with rfl | hx
      · exact hlt
      · exact ih (ht.kid (List.mem_of_getElem? hk)) h x hx
    · cases h

theorem recAt_latin1 {n : Str} {t : Trie α} {x : α × Trie α} (ht : WF t) (h : recAt n t = some x) : Latin1 n := by
  unfold recAt at h
  cases hu : nodeAt n t with
  | none => rw [hu] at h; cases h
  | some u => exact nodeAt_latin1 ht hu

theorem look_latin1 : ∀ {p : Path} {t : Trie α} {v : α}, WF t → look p t = some v → Latin1Path p := by
  intro p
  induction p with
  | nil => intro t v _ _ s hs; simp at hs
  | cons c cs ih =>
    intro t v ht h
    cases cs with
    | nil =>
      simp only [look] at h
      cases hr : recAt c t with
      | none => rw [hr] at h; cases h
      | some x =>
        intro s hs
        rw [List.mem_singleton] at hs
        subst hs
        exact recAt_latin1 ht hr
    | cons d ds =>
      simp only [look] at h
      cases hr : recAt c t with
      | none => rw [hr] at h; cases h
      | some x =>
        rw [hr] at h
        intro s hs
        rcases List.mem_cons.1 hs with rfl | hs
        · exact recAt_latin1 ht hr
        · exact ih (recAt_wf ht hr) h s hs

theorem insertTail_latin1 {val : α} : ∀ {n : Str} {t t' : Trie α}, WF t → insertTail n val t = .ok t' → Latin1 n := by
  intro n
  induction n with
  | nil => intro t t' _ _ c hc; simp at hc
  | cons c cs ih =>
    intro t t' ht h
    obtain ⟨ks, r⟩ := t
    simp only [insertTail, insertTailWith] at h
    cases hk : ks[c.toNat]? with
    | none => rw [hk] at h; cases h
    | some o =>
      have hlt : c.toNat < ks.length := by
        obtain ⟨hh, _⟩ := List.getElem?_eq_some_iff.1 hk; exact hh
      have := ht.len
      simp only [kids] at this
      rw [this] at hlt
      have hcs : Latin1 cs := by
        rw [hk] at h
        cases o with
        | none =>
          obtain ⟨a, ha, _⟩ := Res.bind_eq_ok.1 h
          exact ih wf_empty ha
        | some u =>
          obtain ⟨a, ha, _⟩ := Res.bind_eq_ok.1 h
          exact ih (ht.kid (List.mem_of_getElem? hk)) ha
      intro x hx
      rcases List.mem_cons.1 hx with rfl | hx
      · exact hlt
      · exact hcs x hx

/-- A successful update of a directory went through the update function. -/
theorem modifyName_inv {f : Trie α → Res (Option (Trie α × β))} : ∀ {n : Str} {t t' : Trie α} {b : β},
    modifyName f n t = .ok (some (t', b)) → ∃ u u', nodeAt n t = some u ∧ f u = .ok (some (u', b)) := by
  intro n
  induction n with
  | nil => intro t t' b h; exact ⟨t, t', rfl, h⟩
  | cons c cs ih =>
    intro t t' b h
    obtain ⟨ks, r⟩ := t
    simp only [modifyName] at h
    simp only [nodeAt, kids]
    split at h
    · cases h
    · cases h
    · rename_i u hk
      obtain ⟨o, ho, h⟩ := Res.bind_eq_ok.1 h
      cases o with
      | none => cases h
      | some x =>
        obtain ⟨u1, b1⟩ := x
        have : b1 = b := by
          simp only [Res.ok.injEq, Option.some.injEq, Prod.mk.injEq] at h; exact h.2
        subst this
        rw [hk]
        exact ih ho

theorem modifyAt_inv {g : α → Trie α → Res (Option (Trie α × β))} {n : Str} {t t' : Trie α} {b : β}
    (h : modifyName (modifyRecord g) n t = .ok (some (t', b))) :
    ∃ v s s', recAt n t = some (v, s) ∧ g v s = .ok (some (s', b)) := by
  obtain ⟨u, u', h1, h2⟩ := modifyName_inv h
  obtain ⟨ks, r⟩ := u
  cases r with
  | none => cases h2
  | some x =>
    obtain ⟨v, s⟩ := x
    simp only [modifyRecord] at h2
    obtain ⟨o, ho, h2⟩ := Res.bind_eq_ok.1 h2
    cases o with
    | none => cases h2
    | some y =>
      obtain ⟨s', b1⟩ := y
      have : b1 = b := by
        simp only [Res.ok.injEq, Option.some.injEq, Prod.mk.injEq] at h2; exact h2.2
      subst this
      exact ⟨v, s, s', by rw [recAt, h1]; rfl, ho⟩

theorem modifyDir_inv {g : α → Trie α → Res (Option (Trie α × β))} : ∀ {p : Path} {t t' : Trie α} {b : β},
    p ≠ [] → modifyDir g p t = .ok (some (t', b)) →
    ∃ v s s', look p t = some v ∧ subAt p t = some s ∧ g v s = .ok (some (s', b)) := by
  intro p
  induction p with
  | nil => intro t t' b h; exact absurd rfl h
  | cons c cs ih =>
    intro t t' b _ h
    cases cs with
    | nil =>
      obtain ⟨v, s, s', h1, h2⟩ := modifyAt_inv h
      exact ⟨v, s, s', by simp [look, h1], by simp [subAt, h1], h2⟩
    | cons d ds =>
      obtain ⟨v, s, s', h1, h2⟩ := modifyAt_inv h
      obtain ⟨v', s1, s1', k1, k2, k3⟩ := ih (by simp) h2
      exact ⟨v', s1, s1', by simp [look, h1, k1], by simp only [subAt, h1]; simpa [subAt] using k2, k3⟩

end Trie

open Trie

/-! ## One directory -/

theorem firstNamed_cons (d : DirEnt) (ds : List DirEnt) (n : Str) :
    firstNamed (d :: ds) n = if d.nameStr = n then some d else firstNamed ds n := by
  unfold firstNamed
  rw [List.find?_cons]
  by_cases h : d.nameStr = n
  · simp [h]
  · have : (d.nameStr == n) = false := by simpa using h
    rw [this, if_neg h]

theorem firstNamed_some {ds : List DirEnt} {n : Str} {d : DirEnt} (h : firstNamed ds n = some d) :
    d ∈ ds ∧ d.nameStr = n := by
  unfold firstNamed at h
  exact ⟨List.mem_of_find?_eq_some h, by simpa using List.find?_some h⟩

theorem firstNamed_isSome {ds : List DirEnt} {d : DirEnt} (h : d ∈ ds) : (firstNamed ds d.nameStr).isSome := by
  unfold firstNamed
  rw [List.find?_isSome]
  exact ⟨d, h, by simp⟩

theorem readEntries_spec {dev : Dev} : ∀ {fuel : Nat} {s : Scan} {node node' : Trie DirEnt}
    {acc l : List FileEntry} (acc' : List DirEnt), WF node → readEntries dev fuel s node acc = .ok (node', l) →
    ∃ ds, scanDrain dev fuel s acc' = .ok (acc'.reverse ++ ds) ∧ l = acc.reverse ++ ds.map fileEntryOf ∧
      WF node' ∧ (∀ d ∈ ds, Latin1 d.nameStr) ∧
      (∀ n, look [n] node' = (look [n] node).or (firstNamed ds n)) ∧
      ∀ q, (∀ n, q ≠ [n]) → look q node' = look q node := by
  intro fuel
  induction fuel with
  | zero => intro s node node' acc l acc' _ h; cases h
  | succ fuel ih =>
    intro s node node' acc l acc' hw h
    simp only [readEntries] at h
    obtain ⟨⟨o, s1⟩, h1, h⟩ := Res.bind_eq_ok.1 h
    cases o with
    | none =>
      simp only [Res.pure_eq, Res.ok.injEq, Prod.mk.injEq] at h
      obtain ⟨rfl, rfl⟩ := h
      refine ⟨[], ?_, by simp, hw, by simp, ?_, fun q _ => rfl⟩
      · simp only [scanDrain, h1, Res.ok_bind, Res.pure_eq, List.append_nil]
      · intro n; simp [firstNamed]
    | some d =>
      simp only at h
      obtain ⟨node1, h2, h⟩ := Res.bind_eq_ok.1 h
      have hl := insertTail_latin1 hw h2
      obtain ⟨n1, k1, k2, k3⟩ := look_insertTail hw hl d
      rw [k1] at h2; cases h2
      obtain ⟨ds, i1, i2, i3, i4, i5, i6⟩ := ih (d :: acc') k2 h
      refine ⟨d :: ds, ?_, by rw [i2]; simp, i3, ?_, ?_, ?_⟩
      · simp only [scanDrain, h1, Res.ok_bind]
        rw [i1]; simp
      · intro x hx
        rcases List.mem_cons.1 hx with rfl | hx
        · exact hl
        · exact i4 x hx
      · intro n
        rw [i5, k3, firstNamed_cons]
        by_cases hn : d.nameStr = n
        · subst hn
          cases hlk : look [d.nameStr] node with
          | none => simp
          | some v => simp
        · rw [if_neg (fun hx => hn (by simpa using hx.1.symm)), if_neg hn]
      · intro q hq
        rw [i6 q hq, k3, if_neg (fun hx => hq _ hx.1)]

theorem readEntries_total {dev : Dev} : ∀ {fuel : Nat} {s : Scan} (node : Trie DirEnt)
    (acc : List FileEntry) (acc' ds : List DirEnt), WF node →
    scanDrain dev fuel s acc' = .ok (acc'.reverse ++ ds) → (∀ d ∈ ds, Latin1 d.nameStr) →
    ∃ x, readEntries dev fuel s node acc = .ok x := by
  intro fuel
  induction fuel with
  | zero => intro s node acc acc' ds _ h; cases h
  | succ fuel ih =>
    intro s node acc acc' ds hw h hl
    simp only [scanDrain] at h
    obtain ⟨⟨o, s1⟩, h1, h⟩ := Res.bind_eq_ok.1 h
    simp only [readEntries, h1, Res.ok_bind]
    cases o with
    | none => exact ⟨_, rfl⟩
    | some d =>
      simp only at h
      have hds : ∃ ds', ds = d :: ds' := by
        have : ∀ (fuel : Nat) (s : Scan) (a r : List DirEnt), scanDrain dev fuel s a = .ok r →
            ∃ t, r = a.reverse ++ t := by
          intro fuel
          induction fuel with
          | zero => intro s a r h; cases h
          | succ fuel ih =>
            intro s a r h
            simp only [scanDrain] at h
            obtain ⟨⟨o, s1⟩, _, h⟩ := Res.bind_eq_ok.1 h
            cases o with
            | none => simp only [Res.pure_eq, Res.ok.injEq] at h; exact ⟨[], by rw [← h]; simp⟩
            | some d =>
              obtain ⟨t, ht⟩ := ih _ _ _ h
              exact ⟨d :: t, by rw [ht]; simp⟩
        obtain ⟨t, ht⟩ := this _ _ _ _ h
        refine ⟨t, ?_⟩
        simpa using ht
      obtain ⟨ds', rfl⟩ := hds
      obtain ⟨n1, k1, k2, _⟩ := look_insertTail hw (hl d List.mem_cons_self) d
      simp only [k1, Res.ok_bind]
      exact ih n1 _ (d :: acc') ds' k2 (by rw [h]; simp) (fun x hx => hl x (List.mem_cons_of_mem _ hx))

theorem readTable_spec {dev : Dev} {fuel : Nat} {tab : Region} {node node' : Trie DirEnt} {l : List FileEntry}
    (hw : WF node) (h : readTable dev fuel tab node = .ok (node', l)) :
    ∃ ds, scanAll dev tab fuel = .ok ds ∧ l = ds.map fileEntryOf ∧ WF node' ∧ (∀ d ∈ ds, Latin1 d.nameStr) ∧
      (∀ n, look [n] node' = (look [n] node).or (firstNamed ds n)) ∧
      ∀ q, (∀ n, q ≠ [n]) → look q node' = look q node := by
  obtain ⟨s, h1, h2⟩ := Res.bind_eq_ok.1 h
  obtain ⟨ds, k1, k2, k⟩ := readEntries_spec [] hw h2
  exact ⟨ds, by rw [scanAll, h1]; simpa using k1, by simpa using k2, k⟩

theorem readTable_total {dev : Dev} {fuel : Nat} {tab : Region} {node : Trie DirEnt} {ds : List DirEnt}
    (hw : WF node) (h : scanAll dev tab fuel = .ok ds) (hl : ∀ d ∈ ds, Latin1 d.nameStr) :
    ∃ x, readTable dev fuel tab node = .ok x := by
  obtain ⟨s, h1, h2⟩ := Res.bind_eq_ok.1 h
  obtain ⟨x, hx⟩ := readEntries_total node [] [] ds hw (by simpa using h2) hl
  exact ⟨x, by rw [readTable, h1]; exact hx⟩

/-! ## The cache invariant -/

theorem imgTable_snoc (dev : Dev) (fuel : Nat) : ∀ (p : Path) (root : Region) (n : Str),
    imgTable dev fuel root (p ++ [n]) = (do
      let ds ← imgDirents dev fuel root p
      let d ← Res.ofOption .noDirent (firstNamed ds n)
      Res.ofOption .isNotDirectory d.node.dirent.direntTable) := by
  intro p
  induction p with
  | nil =>
    intro root n
    simp only [List.nil_append, imgTable, imgDirents, Res.ok_bind]
    congr 1
    funext ds
    congr 1
    funext d
    cases d.node.dirent.direntTable <;> rfl
  | cons c cs ih =>
    intro root n
    simp only [List.cons_append, imgTable, imgDirents, ih, bind_assoc]

/-- The cache knows the directory `q`. -/
def Known (dev : Dev) (wf : Nat) (root : Region) (cache : Trie DirEnt) (q : Path) : Prop :=
  ∃ ds, imgDirents dev wf root q = .ok ds ∧ (∀ d ∈ ds, Latin1 d.nameStr) ∧
    ∀ n, look (q ++ [n]) cache = firstNamed ds n

/-- Every directory is known to the cache or unknown to it. -/
def CacheInv (dev : Dev) (wf : Nat) (root : Region) (cache : Trie DirEnt) : Prop :=
  WF cache ∧ ∀ q, Known dev wf root cache q ∨ ∀ n, look (q ++ [n]) cache = none

theorem cacheInv_empty (dev : Dev) (wf : Nat) (root : Region) : CacheInv dev wf root Trie.empty :=
  ⟨wf_empty, fun q => .inr (fun n => look_empty _)⟩

/-- What the cache says about the table of a directory. -/
theorem CacheInv.table {dev : Dev} {wf : Nat} {root : Region} {cache : Trie DirEnt}
    (h : CacheInv dev wf root cache) {p : Path} (hp : p ≠ []) {d : DirEnt} (hl : look p cache = some d) :
    imgTable dev wf root p = Res.ofOption .isNotDirectory d.node.dirent.direntTable := by
  obtain ⟨q, n, rfl⟩ : ∃ q n, p = q ++ [n] := by
    rcases List.eq_nil_or_concat p with rfl | ⟨q, n, rfl⟩
    · exact absurd rfl hp
    · exact ⟨q, n, by simp⟩
  rcases h.2 q with ⟨ds, h1, _, h2⟩ | h2
  · rw [imgTable_snoc, h1]
    rw [h2] at hl
    simp [hl]
  · rw [h2] at hl; cases hl

/-- Updating the cache with one directory. -/
theorem CacheInv.step {dev : Dev} {wf : Nat} {root : Region} {cache cache' : Trie DirEnt} {p : Path}
    {ds : List DirEnt} (h : CacheInv dev wf root cache) (hw : WF cache')
    (hds : imgDirents dev wf root p = .ok ds) (hlat : ∀ d ∈ ds, Latin1 d.nameStr)
    (hin : ∀ n, look (p ++ [n]) cache' = (look (p ++ [n]) cache).or (firstNamed ds n))
    (hout : ∀ q, (∀ n, q ≠ p ++ [n]) → look q cache' = look q cache) :
    CacheInv dev wf root cache' ∧ Known dev wf root cache' p ∧
      (∀ q, Known dev wf root cache q → Known dev wf root cache' q) ∧
      ∀ q d, look q cache = some d → look q cache' = some d := by
  have hknown : Known dev wf root cache' p := by
    refine ⟨ds, hds, hlat, fun n => ?_⟩
    rw [hin]
    rcases h.2 p with ⟨ds', h1, _, h2⟩ | h2
    · rw [hds] at h1; cases h1
      rw [h2]; cases firstNamed ds n <;> rfl
    · rw [h2]; rfl
  have hmono : ∀ q, Known dev wf root cache q → Known dev wf root cache' q := by
    intro q hq
    by_cases hqp : q = p
    · rw [hqp]; exact hknown
    · obtain ⟨ds', h1, h2, h3⟩ := hq
      refine ⟨ds', h1, h2, fun n => ?_⟩
      rw [hout _ (fun m hm => hqp (List.append_inj' hm rfl).1)]
      exact h3 n
  refine ⟨⟨hw, fun q => ?_⟩, hknown, hmono, ?_⟩
  · by_cases hqp : q = p
    · rw [hqp]; exact .inl hknown
    · rcases h.2 q with hk | hk
      · exact .inl (hmono q hk)
      · refine .inr (fun n => ?_)
        rw [hout _ (fun m hm => hqp (List.append_inj' hm rfl).1)]
        exact hk n
  · intro q d hq
    by_cases hex : ∃ n, q = p ++ [n]
    · obtain ⟨n, rfl⟩ := hex
      rw [hin, hq]; rfl
    · rw [hout q (fun n hn => hex ⟨n, hn⟩)]; exact hq

/-- The relation between an image filesystem before and after an operation. -/
structure After (wf : Nat) (fs fs' : ImgFs) : Prop where
  dev : fs'.dev = fs.dev
  vol : fs'.vol = fs.vol
  inv : CacheInv fs.dev wf fs.vol.root fs'.cache
  known : ∀ q, Known fs.dev wf fs.vol.root fs.cache q → Known fs.dev wf fs.vol.root fs'.cache q
  mono : ∀ q d, look q fs.cache = some d → look q fs'.cache = some d

theorem readDir_spec {wf : Nat} {fs fs' : ImgFs} {p : Path} {l : List FileEntry}
    (h : CacheInv fs.dev wf fs.vol.root fs.cache) (hr : fs.readDir wf p = .ok (l, fs')) :
    imgReadDir fs.dev wf fs.vol.root p = .ok l ∧ After wf fs fs' ∧ Known fs.dev wf fs.vol.root fs'.cache p := by
  unfold ImgFs.readDir at hr
  by_cases hp : p = []
  · subst hp
    rw [if_pos rfl] at hr
    obtain ⟨⟨cache', l'⟩, h1, h2⟩ := Res.bind_eq_ok.1 hr
    simp only [Res.pure_eq, Res.ok.injEq, Prod.mk.injEq] at h2
    obtain ⟨rfl, rfl⟩ := h2
    obtain ⟨ds, k1, k2, k3, k4, k5, k6⟩ := readTable_spec h.1 h1
    have hds : imgDirents fs.dev wf fs.vol.root [] = .ok ds := by simp [imgDirents, imgTable, k1]
    obtain ⟨a, b, c, d⟩ := h.step k3 hds k4 (p := []) (by simpa using k5) (by simpa using k6)
    exact ⟨by simp [imgReadDir, hds, k2], ⟨rfl, rfl, a, c, d⟩, b⟩
  · rw [if_neg hp] at hr
    obtain ⟨o, h1, h2⟩ := Res.bind_eq_ok.1 hr
    cases o with
    | none => cases h2
    | some x =>
      obtain ⟨cache', l'⟩ := x
      simp only [Res.pure_eq, Res.ok.injEq, Prod.mk.injEq] at h2
      obtain ⟨rfl, rfl⟩ := h2
      obtain ⟨v, s, s', g1, g2, g3⟩ := modifyDir_inv hp h1
      have hlat := look_latin1 h.1 g1
      obtain ⟨tab, e1, e2⟩ := Res.bind_eq_ok.1 g3
      obtain ⟨⟨s1, l1⟩, e3, e4⟩ := Res.bind_eq_ok.1 e2
      simp only [Res.pure_eq, Res.ok.injEq, Option.some.injEq, Prod.mk.injEq] at e4
      obtain ⟨rfl, rfl⟩ := e4
      obtain ⟨ds, k1, k2, k3, k4, k5, k6⟩ := readTable_spec (subAt_wf h.1 g2) e3
      obtain ⟨t', j1, j2, j3, j4⟩ := (modifyDir_spec (g := fun (dirent : DirEnt) node => do
        let tab ← Res.ofOption .isNotDirectory dirent.node.dirent.direntTable
        let x ← readTable fs.dev wf tab node
        pure (some x)) h.1 hlat hp).2 v s s1 l1 g1 g2 g3 k3
      rw [j1] at h1
      simp only [Res.ok.injEq, Option.some.injEq, Prod.mk.injEq] at h1
      obtain ⟨rfl, _⟩ := h1
      have htab := h.table hp g1
      rw [e1] at htab
      have hds : imgDirents fs.dev wf fs.vol.root p = .ok ds := by simp [imgDirents, htab, k1]
      obtain ⟨a, b, c, d⟩ := h.step j2 hds k4 (fun n => by
          rw [j3 [n] (by simp), look_append g2 [n] (by simp)]; exact k5 n) (fun q hq => by
          by_cases hex : ∃ r, r ≠ [] ∧ q = p ++ r
          · obtain ⟨r, hr0, rfl⟩ := hex
            rw [j3 r hr0, look_append g2 r hr0]
            exact k6 r (fun n hn => hq n (by rw [hn]))
          · exact j4 q (fun r hr0 hx => hex ⟨r, hr0, hx⟩))
      exact ⟨by simp [imgReadDir, hds, k2], ⟨rfl, rfl, a, c, d⟩, b⟩

theorem readDir_total {wf : Nat} {fs : ImgFs} {p : Path} {l : List FileEntry}
    (h : CacheInv fs.dev wf fs.vol.root fs.cache) (hp : p = [] ∨ ∃ d, look p fs.cache = some d)
    (hr : imgReadDir fs.dev wf fs.vol.root p = .ok l) (hlat : ∀ e ∈ l, Latin1 e.name) :
    ∃ x, fs.readDir wf p = .ok x := by
  obtain ⟨ds, h1, h2⟩ := Res.bind_eq_ok.1 hr
  obtain ⟨tab, h3, h4⟩ := Res.bind_eq_ok.1 h1
  simp only [Res.pure_eq, Res.ok.injEq] at h2
  subst h2
  have hlat' : ∀ d ∈ ds, Latin1 d.nameStr := fun d hd => hlat _ (List.mem_map_of_mem (f := fileEntryOf) hd)
  unfold ImgFs.readDir
  by_cases hp0 : p = []
  · subst hp0
    cases h3
    obtain ⟨x, hx⟩ := readTable_total h.1 h4 hlat'
    rw [if_pos rfl, hx]
    exact ⟨_, rfl⟩
  · rw [if_neg hp0]
    obtain ⟨d, hd⟩ := hp.resolve_left hp0
    have htab := h.table hp0 hd
    rw [h3] at htab
    have hsome := subAt_isSome (t := fs.cache) hp0
    rw [hd] at hsome
    obtain ⟨s, hs⟩ := Option.isSome_iff_exists.1 hsome
    obtain ⟨⟨s', l'⟩, hx⟩ := readTable_total (subAt_wf h.1 hs) h4 hlat'
    obtain ⟨_, _, _, k3, _⟩ := readTable_spec (subAt_wf h.1 hs) hx
    obtain ⟨t', j1, _⟩ := (modifyDir_spec (g := fun (dirent : DirEnt) node => do
      let tab ← Res.ofOption .isNotDirectory dirent.node.dirent.direntTable
      let x ← readTable fs.dev wf tab node
      pure (some x)) h.1 (look_latin1 h.1 hd) hp0).2 d s s' l' hd hs (by
        rw [← htab]; simp [hx]) k3
    rw [j1]
    exact ⟨_, rfl⟩

/-! ## The whole tree -/

theorem After.refl {wf : Nat} {fs : ImgFs} (h : CacheInv fs.dev wf fs.vol.root fs.cache) : After wf fs fs :=
  ⟨rfl, rfl, h, fun _ h => h, fun _ _ h => h⟩

theorem After.trans {wf : Nat} {a b c : ImgFs} (h1 : After wf a b) (h2 : After wf b c) : After wf a c := by
  obtain ⟨d1, v1, i1, k1, m1⟩ := h1
  obtain ⟨d2, v2, i2, k2, m2⟩ := h2
  rw [d1, v1] at i2 k2
  exact ⟨d2.trans d1, v2.trans v1, i2, fun q hq => k2 q (k1 q hq), fun q d hq => m2 q d (m1 q d hq)⟩

theorem known_child {dev : Dev} {wf : Nat} {root : Region} {cache : Trie DirEnt} {p : Path} {l : List FileEntry}
    (h : Known dev wf root cache p) (hr : imgReadDir dev wf root p = .ok l) {e : FileEntry} (he : e ∈ l) :
    ∃ d, look (p ++ [e.name]) cache = some d := by
  obtain ⟨ds, h1, _, h2⟩ := h
  simp only [imgReadDir, h1, Res.ok_bind, Res.pure_eq, Res.ok.injEq] at hr
  subst hr
  obtain ⟨d, hd, rfl⟩ := List.mem_map.1 he
  rw [h2]
  exact Option.isSome_iff_exists.1 (firstNamed_isSome hd)

/-- The scan of an image with its cache. -/
def ScanSpec (wf fuel : Nat) (fs : ImgFs) (stack : List Path) (out : List (Path × List FileEntry))
    (s : PackState σ) : Prop :=
  (imgTreeLoop wf fuel fs stack out s).2.dev = s.dev ∧
  ∀ D fs', (imgTreeLoop wf fuel fs stack out s).1 = .ok (D, fs') →
    (∀ env : PackEnv σ, env.readDir = imgReadDir fs.dev wf fs.vol.root →
      dirTreeLoop env fuel stack out s = (.ok D, (imgTreeLoop wf fuel fs stack out s).2)) ∧
    After wf fs fs' ∧
    ((∀ x ∈ out, Known fs.dev wf fs.vol.root fs.cache x.1) → ∀ x ∈ D, Known fs.dev wf fs.vol.root fs'.cache x.1)

theorem imgTreeLoop_spec {wf : Nat} : ∀ (fuel : Nat) (fs : ImgFs) (stack : List Path)
    (out : List (Path × List FileEntry)) (s : PackState σ), CacheInv fs.dev wf fs.vol.root fs.cache →
    (∀ p ∈ stack, p = [] ∨ ∃ d, look p fs.cache = some d) → ScanSpec wf fuel fs stack out s := by
  intro fuel
  induction fuel with
  | zero =>
    intro fs stack out s h _
    cases stack with
    | nil =>
      refine ⟨rfl, fun D fs' hD => ?_⟩
      cases hD
      exact ⟨fun _ _ => rfl, .refl h, fun hx x hm => hx x (List.mem_reverse.1 hm)⟩
    | cons p stack => exact ⟨rfl, fun D fs' hD => by cases hD⟩
  | succ fuel ih =>
    intro fs stack out s h hst
    cases stack with
    | nil =>
      refine ⟨rfl, fun D fs' hD => ?_⟩
      cases hD
      exact ⟨fun _ _ => rfl, .refl h, fun hx x hm => hx x (List.mem_reverse.1 hm)⟩
    | cons p stack =>
      cases hr : fs.readDir wf p with
      | err e =>
        have : imgTreeLoop wf (fuel + 1) fs (p :: stack) out s = (.err e, s) := by
          simp only [imgTreeLoop, PM.bind_def, PM.lift, hr]
        unfold ScanSpec
        rw [this]
        exact ⟨rfl, fun D fs' hD => by cases hD⟩
      | panic =>
        have : imgTreeLoop wf (fuel + 1) fs (p :: stack) out s = (.panic, s) := by
          simp only [imgTreeLoop, PM.bind_def, PM.lift, hr]
        unfold ScanSpec
        rw [this]
        exact ⟨rfl, fun D fs' hD => by cases hD⟩
      | hang =>
        have : imgTreeLoop wf (fuel + 1) fs (p :: stack) out s = (.hang, s) := by
          simp only [imgTreeLoop, PM.bind_def, PM.lift, hr]
        unfold ScanSpec
        rw [this]
        exact ⟨rfl, fun D fs' hD => by cases hD⟩
      | ok x =>
        obtain ⟨l, fs1⟩ := x
        obtain ⟨hl, ha, hk⟩ := readDir_spec h hr
        have hi := ha.inv
        have e1 := ha.dev
        have e2 := ha.vol
        have hst' : ∀ q ∈ (subdirPaths p l).reverse ++ stack, q = [] ∨ ∃ d, look q fs1.cache = some d := by
          intro q hq
          rcases List.mem_append.1 hq with hq | hq
          · obtain ⟨e, he, _, rfl⟩ := mem_subdirPaths.1 (List.mem_reverse.1 hq)
            exact .inr (known_child hk hl he)
          · rcases hst q (List.mem_cons_of_mem _ hq) with h0 | ⟨d, hd⟩
            · exact .inl h0
            · exact .inr ⟨d, ha.mono q d hd⟩
        have hs : imgTreeLoop wf (fuel + 1) fs (p :: stack) out s =
            imgTreeLoop wf fuel fs1 ((subdirPaths p l).reverse ++ stack) ((p, l) :: out)
              { s with log := s.log ++ [.discoveredDirectory l.length] } := by
          simp only [imgTreeLoop, PM.bind_def, PM.lift, hr, PM.report]
        obtain ⟨i1, i2⟩ := ih fs1 ((subdirPaths p l).reverse ++ stack) ((p, l) :: out)
          { s with log := s.log ++ [.discoveredDirectory l.length] } (by rw [e1, e2]; exact hi) hst'
        unfold ScanSpec
        rw [hs]
        refine ⟨i1, fun D fs' hD => ?_⟩
        obtain ⟨j1, j2, j3⟩ := i2 D fs' hD
        rw [e1, e2] at j1 j3
        refine ⟨fun env henv => ?_, ha.trans j2, fun hx x hm => ?_⟩
        · rw [← j1 env henv]
          simp only [dirTreeLoop, PM.bind_def, PM.lift, henv, hl, PM.report]
        · refine j3 ?_ x hm
          intro y hy
          rcases List.mem_cons.1 hy with rfl | hy
          · exact hk
          · exact ha.known _ (hx y hy)

/-- The scan succeeds whenever the tree without cache is finite, listable and has short names. -/
theorem imgTreeLoop_total {wf : Nat} {rd : ReadDir} {stack : List Path} {D : List (Path × List FileEntry)}
    (hW : Walked rd stack D) : ∀ (fuel : Nat) (fs : ImgFs) (out : List (Path × List FileEntry))
    (s : PackState σ), rd = imgReadDir fs.dev wf fs.vol.root → CacheInv fs.dev wf fs.vol.root fs.cache →
    (∀ p ∈ stack, p = [] ∨ ∃ d, look p fs.cache = some d) → (∀ x ∈ D, ∀ e ∈ x.2, Latin1 e.name) →
    D.length ≤ fuel → ∃ x, (imgTreeLoop wf fuel fs stack out s).1 = .ok x := by
  induction hW with
  | nil => intro fuel fs out s _ _ _ _ _; cases fuel <;> exact ⟨_, rfl⟩
  | @cons p stack l D h1 h2 ih =>
    intro fuel fs out s hrd h hst hlat hf
    obtain ⟨fuel, rfl⟩ : ∃ f, fuel = f + 1 := ⟨fuel - 1, by simp at hf; omega⟩
    subst hrd
    obtain ⟨⟨l', fs1⟩, hr⟩ := readDir_total h (hst p List.mem_cons_self) h1 (hlat (p, l) List.mem_cons_self)
    obtain ⟨hl, ha, hk⟩ := readDir_spec h hr
    rw [h1] at hl; cases hl
    have hs : imgTreeLoop wf (fuel + 1) fs (p :: stack) out s =
        imgTreeLoop wf fuel fs1 ((subdirPaths p l).reverse ++ stack) ((p, l) :: out)
          { s with log := s.log ++ [.discoveredDirectory l.length] } := by
      simp only [imgTreeLoop, PM.bind_def, PM.lift, hr, PM.report]
    rw [hs]
    refine ih fuel fs1 _ _ (by rw [ha.dev, ha.vol]) (by rw [ha.dev, ha.vol]; exact ha.inv) ?_
      (fun x hx => hlat x (List.mem_cons_of_mem _ hx)) (by simpa using hf)
    intro q hq
    rcases List.mem_append.1 hq with hq | hq
    · obtain ⟨e, he, _, rfl⟩ := mem_subdirPaths.1 (List.mem_reverse.1 hq)
      exact .inr (known_child hk h1 he)
    · rcases hst q (List.mem_cons_of_mem _ hq) with h0 | ⟨d, hd⟩
      · exact .inl h0
      · exact .inr ⟨d, ha.mono q d hd⟩

/-! ## After the scan -/

theorem packListing_congr (env : PackEnv σ) (rd : ReadDir) (path : Path) : ∀ (ls : List Listing) (ds : PathMap Nat),
    packListing { env with readDir := rd } path ds ls = packListing env path ds ls := by
  intro ls
  induction ls with
  | nil => intro ds; rfl
  | cons l ls ih => intro ds; simp only [packListing, ih]

theorem packDirs_congr (env : PackEnv σ) (rd : ReadDir) : ∀ (tables : PathMap TabWriter) (ds : PathMap Nat) (n : Nat),
    packDirs { env with readDir := rd } tables ds n = packDirs env tables ds n := by
  intro tables
  induction tables with
  | nil => intro ds n; rfl
  | cons x tables ih =>
    intro ds n
    obtain ⟨path, w⟩ := x
    simp only [packDirs, packListing_congr, ih]

/-- What happens after the scan does not list directories. -/
theorem createFrom_congr (env : PackEnv σ) (rd : ReadDir) (D : List (Path × List FileEntry)) :
    createFrom { env with readDir := rd } D = createFrom env D := by
  simp only [createFrom, packDirs_congr, padImage]
  rfl

/-- The image as a source without cache, with the copy operation of the filesystem after its scan. -/
def pureSource (wf : Nat) (copier : Copier) (fs : ImgFs) : SourceFs where
  readDir := imgReadDir fs.dev wf fs.vol.root
  pathToString := pathAsString
  copy := fs.copy copier

/-- Repacking an image is packing its tree, unless the scan fails. -/
theorem repack_cases {copier : Copier} {faults : Faults} {wf fuel : Nat} {fs : ImgFs} {s s' : PackState ImgFile}
    {res : Res Unit} (hc : fs.cache = Trie.empty)
    (h : repackImage copier faults wf fuel fs s = (res, s')) :
    (∃ fs', After wf fs fs' ∧
      (∀ p, DirOf (imgReadDir fs.dev wf fs.vol.root) p → Known fs.dev wf fs.vol.root fs'.cache p) ∧
      createImage (fileEnv (pureSource wf copier fs') faults) fuel s = (res, s')) ∨
    ((∀ u, res ≠ .ok u) ∧ s'.dev = s.dev ∧ ∀ x, (imgTreeLoop wf fuel fs [[]] [] s).1 ≠ .ok x) := by
  have hinv : CacheInv fs.dev wf fs.vol.root fs.cache := by rw [hc]; exact cacheInv_empty _ _ _
  obtain ⟨h1, h2⟩ := imgTreeLoop_spec fuel fs [[]] [] s hinv (by simp)
  simp only [repackImage, PM.bind_def] at h
  rcases hx : imgTreeLoop wf fuel fs [[]] [] s with ⟨r, s1⟩
  rw [hx] at h h1 h2
  cases r with
  | ok x =>
    obtain ⟨D, fs'⟩ := x
    left
    simp only at h
    obtain ⟨j1, j2, j3⟩ := h2 D fs' rfl
    have hdt := j1 (fileEnv (pureSource wf copier fs') faults) (by
      simp only [fileEnv, pureSource]; rw [j2.dev, j2.vol])
    refine ⟨fs', j2, ?_, ?_⟩
    · intro p hp
      obtain ⟨k1, _, _⟩ := dirTree_ok hdt
      have : (fileEnv (pureSource wf copier fs') faults).readDir = imgReadDir fs.dev wf fs.vol.root := by
        simp only [fileEnv, pureSource]; rw [j2.dev, j2.vol]
      rw [this] at k1
      obtain ⟨y, hy, rfl⟩ := List.mem_map.1 ((k1.mem_iff p).2 hp)
      exact j3 (by simp) y hy
    · simp only [createImage, dirTree, PM.bind_def, hdt]
      rw [← h]
      exact congrFun (createFrom_congr (fileEnv (fs'.source (fun _ => .err .other) copier) faults)
        (imgReadDir fs'.dev wf fs'.vol.root) D) s1
  | err e => right; cases h; exact ⟨by simp, h1, by simp⟩
  | panic => right; cases h; exact ⟨by simp, h1, by simp⟩
  | hang => right; cases h; exact ⟨by simp, h1, by simp⟩

/-! ## Copying from the image -/

theorem copy_known {dev : Dev} {wf : Nat} {root : Region} {fs : ImgFs} {p : Path} {ds : List DirEnt}
    (hw : WF fs.cache) (h : Known dev wf root fs.cache p) (hp : Latin1Path p)
    (hds : imgDirents dev wf root p = .ok ds) {n : Str} {d : DirEnt}
    (hd : firstNamed ds n = some d) : fs.cache.get (p ++ [n]) = .ok (some d) := by
  obtain ⟨ds', h1, h2, h3⟩ := h
  rw [hds] at h1; cases h1
  obtain ⟨k1, rfl⟩ := firstNamed_some hd
  rw [get_eq hw _ (by simp), h3, hd]
  intro s hs
  rcases List.mem_append.1 hs with hs | hs
  · exact hp s hs
  · rw [List.mem_singleton] at hs
    rw [hs]; exact h2 d k1

/-- In a known tree every directory path is made of short characters. -/
theorem dirOf_latin1 {dev : Dev} {wf : Nat} {root : Region} {cache : Trie DirEnt}
    (hk : ∀ p, DirOf (imgReadDir dev wf root) p → Known dev wf root cache p) {p : Path}
    (hp : DirOf (imgReadDir dev wf root) p) : Latin1Path p := by
  induction hp with
  | root => intro s hs; simp at hs
  | @sub p l e h1 h2 h3 h4 ih =>
    intro s hs
    rcases List.mem_append.1 hs with hs | hs
    · exact ih s hs
    · rw [List.mem_singleton] at hs
      subst hs
      obtain ⟨ds, k1, k2, _⟩ := hk p h1
      simp only [imgReadDir, k1, Res.ok_bind, Res.pure_eq, Res.ok.injEq] at h2
      subst h2
      obtain ⟨d, hd, rfl⟩ := List.mem_map.1 h3
      exact k2 d hd

theorem firstNamed_distinct {ds : List DirEnt} (h : DistinctNames ((ds.map fileEntryOf).map (·.name))) {d : DirEnt}
    (hd : d ∈ ds) : firstNamed ds d.nameStr = some d := by
  obtain ⟨d', hd'⟩ := Option.isSome_iff_exists.1 (firstNamed_isSome hd)
  rw [hd']
  obtain ⟨k1, k2⟩ := firstNamed_some hd'
  unfold DistinctNames at h
  rw [List.map_map, List.pairwise_map] at h
  congr 1
  clear hd'
  induction ds with
  | nil => cases hd
  | cons x ds ih =>
    obtain ⟨h1, h2⟩ := List.pairwise_cons.1 h
    rcases List.mem_cons.1 hd with e1 | e1 <;> rcases List.mem_cons.1 k1 with e2 | e2
    · rw [e1, e2]
    · subst e1
      exact absurd (show SameName d.nameStr d'.nameStr by rw [k2]; rfl) (h1 d' e2)
    · subst e2
      exact absurd (show SameName d'.nameStr d.nameStr by rw [k2]; rfl) (h1 d e1)
    · exact ih h2 e1 e2

theorem copy_bounded {dev : Dev} {copier : Copier} (hc : CopiesFrom dev copier) (fs : ImgFs) (p : Path) (off n : Nat) :
    (fs.copy copier p off n).1.flatten.length ≤ n := by
  unfold ImgFs.copy
  split
  · simp
  · simp only
    split
    · simp
    · split
      · exact Nat.le_trans (hc _ _).1 (Nat.min_le_left _ _)
      · simp
      · simp
      · simp
  · simp
  · simp
  · simp

theorem pureSource_bounded {wf : Nat} {copier : Copier} {fs : ImgFs} {dev : Dev} (hc : CopiesFrom dev copier) :
    Bounded (pureSource wf copier fs) := fun p n => copy_bounded hc fs p 0 n

theorem pureSource_faithful {wf : Nat} {copier : Copier} {fs fs' : ImgFs} {content : Path → Bytes}
    (ha : After wf fs fs')
    (hk : ∀ p, DirOf (imgReadDir fs.dev wf fs.vol.root) p → Known fs.dev wf fs.vol.root fs'.cache p)
    (hd : AllDistinct (imgReadDir fs.dev wf fs.vol.root))
    (hc : CopiesFrom fs.dev copier) (hcont : ImgContent fs.dev wf fs.vol.root content) :
    FaithfulTo (pureSource wf copier fs') content := by
  intro p e k he hde hok
  have hrd : (pureSource wf copier fs').readDir = imgReadDir fs.dev wf fs.vol.root := by
    simp only [pureSource]; rw [ha.dev, ha.vol]
  rw [hrd] at he
  obtain ⟨hp, l, hl, hel⟩ := he
  obtain ⟨ds, h1, h2⟩ := Res.bind_eq_ok.1 hl
  simp only [Res.pure_eq, Res.ok.injEq] at h2
  subst h2
  obtain ⟨d, hdm, rfl⟩ := List.mem_map.1 hel
  have hfirst := firstNamed_distinct (hd p _ hp hl) hdm
  have hget := copy_known ha.inv.1 (hk p hp) (dirOf_latin1 hk hp) h1 hfirst
  have hdir : d.node.dirent.isDirectory = false := hde
  have hread := hcont p ds d hp h1 hdm hdir
  simp only [pureSource, ImgFs.copy, fileEntryOf, hget, Nat.min_self] at hok ⊢
  unfold readDataAll at hread
  by_cases hz : d.node.dirent.data.size.toNat = 0
  · have hz' : d.node.dirent.data.size = 0 := UInt32.toNat_inj.1 hz
    rw [if_pos hz'] at hread
    rw [if_pos hz]
    simp only [Res.ok.injEq] at hread
    rw [← hread]
    simp [hz]
  · have hz' : ¬ d.node.dirent.data.size = 0 := fun hx => hz (by rw [hx]; rfl)
    rw [if_neg hz'] at hread
    rw [if_neg hz] at hok ⊢
    obtain ⟨off, ho1, ho2⟩ := Res.bind_eq_ok.1 hread
    rw [ho1] at hok ⊢
    simp only at hok ⊢
    exact ⟨(hc off _).2 _ k ho2 hok, fs.dev.read_len _ _ _ ho2⟩

/-- A repacked image holds the tree of its source. -/
theorem repack_success {copier : Copier} {faults : Faults} {wf fuel : Nat} {fs : ImgFs} {img0 : Bytes}
    {s' : PackState ImgFile} {content : Path → Bytes} (hc : fs.cache = Trie.empty)
    (hcop : CopiesFrom fs.dev copier) (hcont : ImgContent fs.dev wf fs.vol.root content)
    (h : repackImage copier faults wf fuel fs ⟨⟨img0, []⟩, []⟩ = (.ok (), s')) :
    HoldsTree (fileDev s'.dev.img) (imgReadDir fs.dev wf fs.vol.root) content := by
  rcases repack_cases hc h with ⟨fs', h1, h2, h3⟩ | ⟨h1, _⟩
  · have hrd : (pureSource wf copier fs').readDir = imgReadDir fs.dev wf fs.vol.root := by
      simp only [pureSource]; rw [h1.dev, h1.vol]
    obtain ⟨D, M, rootW, rootSize, next, recs, n', hS⟩ := shape_of_success h3
    have hdist := PlanShape.allDistinct (fs := pureSource wf copier fs') hS
    have := pack_success (pureSource_bounded hcop)
      (pureSource_faithful h1 h2 (by rw [← hrd]; exact hdist) hcop hcont) h3
    rw [hrd] at this
    exact this
  · exact absurd rfl (h1 ())

/-- An interrupted repack. -/
theorem repack_crash {copier : Copier} {faults : Faults} {wf fuel : Nat} {fs : ImgFs}
    {s' : PackState ImgFile} {res : Res Unit} {content : Path → Bytes} (hc : fs.cache = Trie.empty)
    (hcop : CopiesFrom fs.dev copier) (hcont : ImgContent fs.dev wf fs.vol.root content)
    (h : repackImage copier faults wf fuel fs ⟨⟨[], []⟩, []⟩ = (res, s')) :
    (∀ v, readVolume (fileDev s'.dev.img) ≠ .ok v) ∨
    HoldsTree (fileDev s'.dev.img) (imgReadDir fs.dev wf fs.vol.root) content := by
  have hz : ∀ v, readVolume (fileDev []) ≠ .ok v := readVolume_zero (by simp)
  rcases repack_cases hc h with ⟨fs', h1, h2, h3⟩ | ⟨_, h1, _⟩
  · have hrd : (pureSource wf copier fs').readDir = imgReadDir fs.dev wf fs.vol.root := by
      simp only [pureSource]; rw [h1.dev, h1.vol]
    by_cases hdist : AllDistinct (imgReadDir fs.dev wf fs.vol.root)
    · have := pack_crash (pureSource_bounded hcop)
        (pureSource_faithful h1 h2 hdist hcop hcont) h3
      rw [hrd] at this
      exact this
    · left
      rw [← hrd] at hdist
      obtain ⟨k1, k2⟩ := pack_end _ _ _ _ h3
      cases k2 with
      | early _ k2 => rw [k1, k2]; exact hz
      | data hS _ _ => exact absurd hS.allDistinct hdist
      | desc hS _ _ _ _ => exact absurd hS.allDistinct hdist
      | pad hS _ _ _ _ _ => exact absurd hS.allDistinct hdist
  · left; rw [h1]; exact hz

end Xdvdfs
