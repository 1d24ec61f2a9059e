import Verif.Spec.Host
import Verif.Proof.ImgRead

/-!
# Lemmas about the host file system
-/

namespace Xdvdfs
open Spec

theorem stepsFrom_append : ∀ (a b : List Str) (cur : HostPath),
    stepsFrom cur (a ++ b) = stepsFrom (stepsFrom cur a) b := by
  intro a b
  induction a with
  | nil => intro cur; rfl
  | cons c cs ih =>
    intro cur
    simp only [List.cons_append, stepsFrom]
    split
    · exact ih _
    · split
      · exact ih _
      · exact ih _

/-- Without `..` the walk only goes down. -/
theorem stepsFrom_below : ∀ (cs : List Str) (cur : HostPath), ['.', '.'] ∉ cs →
    stepsFrom cur cs = cur ++ cs.filter (fun c => decide (c ≠ ['.'])) := by
  intro cs
  induction cs with
  | nil => intro cur _; simp [stepsFrom]
  | cons c cs ih =>
    intro cur h
    simp only [List.mem_cons, not_or] at h
    simp only [stepsFrom]
    by_cases hc : c = ['.']
    · rw [if_pos hc, ih _ h.2]; simp [hc]
    · rw [if_neg hc, if_neg (fun e => h.1 e.symm), ih _ h.2]; simp [hc]

theorem take_append_cases {α : Type} (a b : List α) (k : Nat) :
    (∃ j, (a ++ b).take k = a.take j) ∨ ∃ j, (a ++ b).take k = a ++ b.take j := by
  by_cases h : k ≤ a.length
  · exact Or.inl ⟨k, by rw [List.take_append_of_le_length h]⟩
  · refine Or.inr ⟨k - a.length, ?_⟩
    rw [List.take_append, List.take_of_length_le (by omega)]

/-! ## Components of joined paths -/

theorem splitSlash_join : ∀ (a b : Str), splitSlash (a ++ '/' :: b) = splitSlash a ++ splitSlash b := by
  intro a b
  induction a with
  | nil => simp [splitSlash]
  | cons c cs ih =>
    simp only [List.cons_append, splitSlash]
    split
    · rw [ih]; rfl
    · rw [ih]
      cases h : splitSlash cs with
      | nil => exact absurd h (splitSlash_ne_nil cs)
      | cons x xs => rfl

theorem hostComps_join (a b : Str) : hostComps (a ++ '/' :: b) = hostComps a ++ hostComps b := by
  unfold hostComps; rw [splitSlash_join, List.filter_append]

theorem hostComps_nil : hostComps [] = [] := by simp [hostComps, splitSlash]

theorem hostComps_plain {s : Str} (h : '/' ∉ s) (hne : s ≠ []) : hostComps s = [s] := by
  unfold hostComps; rw [splitSlash_plain h]; simp [hne]

theorem hostComps_trim : ∀ (s : Str), hostComps (trimSlashes s) = hostComps s := by
  intro s
  induction s with
  | nil => rfl
  | cons c cs ih =>
    by_cases h : c = '/'
    · subst h
      rw [trimSlashes, ih]
      have := hostComps_join [] cs
      rw [hostComps_nil] at this
      exact this.symm
    · have : trimSlashes (c :: cs) = c :: cs := by
        unfold trimSlashes
        split
        · next h' => injection h' with h1 h2; exact absurd h1 h
        · rfl
      rw [this]

theorem trimSlashes_head : ∀ (s : Str), (trimSlashes s).head? ≠ some '/' := by
  intro s
  induction s with
  | nil => simp [trimSlashes]
  | cons c cs ih =>
    by_cases h : c = '/'
    · subst h; rw [trimSlashes]; exact ih
    · have : trimSlashes (c :: cs) = c :: cs := by
        unfold trimSlashes
        split
        · next h' => injection h' with h1 h2; exact absurd h1 h
        · rfl
      rw [this]; simpa using h

theorem getLast_split {a : Str} {c : Char} (h : a.getLast? = some c) : ∃ b, a = b ++ [c] := by
  rcases List.eq_nil_or_concat a with rfl | ⟨b, d, rfl⟩
  · cases h
  · rw [List.concat_eq_append, List.getLast?_append] at h
    simp at h
    exact ⟨b, by rw [h]; simp⟩

theorem hostComps_pathJoin {a b : Str} (h : b.head? ≠ some '/') :
    hostComps (pathJoin a b) = hostComps a ++ hostComps b := by
  unfold pathJoin
  rw [if_neg h]
  split
  · next h' =>
    rcases h' with rfl | h'
    · simp [hostComps_nil]
    · obtain ⟨d, rfl⟩ := getLast_split h'
      have h1 : d ++ ['/'] ++ b = d ++ '/' :: b := by simp
      rw [h1, hostComps_join, hostComps_join, hostComps_nil]; simp
  · exact hostComps_join a b

theorem start_pathJoin {h : Host} {a b : Str} (hb : b.head? ≠ some '/') :
    h.start (pathJoin a b) = h.start a := by
  unfold pathJoin Host.start
  rw [if_neg hb]
  cases a with
  | nil => simp [hb]
  | cons c cs => split <;> simp

theorem mem_pathJoin {a b : Str} {c : Char} (h : c ∈ pathJoin a b) (hc : c ≠ '/') : c ∈ a ∨ c ∈ b := by
  unfold pathJoin at h
  split at h
  · exact Or.inr h
  · split at h
    · exact List.mem_append.1 h
    · rcases List.mem_append.1 h with h | h
      · exact Or.inl h
      · rcases List.mem_cons.1 h with h | h
        · exact absurd h hc
        · exact Or.inr h

theorem head_of_plain {s : Str} (h : '/' ∉ s) : s.head? ≠ some '/' := by
  cases s with
  | nil => simp
  | cons c cs =>
    simp only [List.head?_cons, ne_eq, Option.some.injEq]
    intro e; exact h (by simp [e])

/-! ## Resolution -/

theorem hostWalk_place {fs : HostFs} : ∀ (cs : List Str) (cur : HostPath) {p : HostPath},
    hostWalk fs cur cs = .ok p → p = stepsFrom cur cs := by
  intro cs
  induction cs with
  | nil => intro cur p h; simp only [hostWalk, Res.ok.injEq] at h; exact h.symm
  | cons c cs ih =>
    intro cur p h
    simp only [hostWalk] at h
    split at h
    · cases h
    · simp only [stepsFrom]
      split at h
      · next hc => rw [if_pos hc]; exact ih _ h
      · next hc =>
        rw [if_neg hc]
        split at h
        · next hc' => rw [if_pos hc']; exact ih _ h
        · next hc' => rw [if_neg hc']; exact ih _ h

theorem hostWalk_ok {fs : HostFs} : ∀ (cs : List Str) (cur : HostPath),
    (∀ k, k < cs.length → fs (stepsFrom cur (cs.take k)) = some .dir) →
    hostWalk fs cur cs = .ok (stepsFrom cur cs) := by
  intro cs
  induction cs with
  | nil => intro cur _; rfl
  | cons c cs ih =>
    intro cur h
    have h0 := h 0 (by simp)
    simp only [List.take_zero, stepsFrom] at h0
    have hs : ∀ k, k < cs.length → fs (stepsFrom cur (c :: cs.take k)) = some .dir := by
      intro k hk
      have := h (k + 1) (by simp; omega)
      simpa using this
    simp only [hostWalk, stepsFrom]
    rw [if_neg (by simp [h0])]
    simp only [stepsFrom] at hs
    split
    · next hc => exact ih _ (fun k hk => by have := hs k hk; rwa [if_pos hc] at this)
    · next hc =>
      split
      · next hc' => exact ih _ (fun k hk => by have := hs k hk; rwa [if_neg hc, if_pos hc'] at this)
      · next hc' => exact ih _ (fun k hk => by have := hs k hk; rwa [if_neg hc, if_neg hc'] at this)

theorem resolve_place {h : Host} {fs : HostFs} {path : Str} {p : HostPath} (hr : h.resolve fs path = .ok p) :
    p = placeOf h path := by
  unfold Host.resolve at hr
  split at hr
  · cases hr
  · exact hostWalk_place _ _ hr

/-! ## Operations -/

theorem set_same (fs : HostFs) (p : HostPath) (n : HostNode) : fs.set p n p = some n := by
  simp [HostFs.set]

theorem set_other {fs : HostFs} {p q : HostPath} {n : HostNode} (h : q ≠ p) : fs.set p n q = fs q := by
  simp [HostFs.set, h]

/-- Directory creation changes missing places on the way into directories, and nothing else. -/
theorem makeDirs_changes {h : Host} : ∀ (cs : List Str) (cur : HostPath) (fs : HostFs) {r fs'},
    h.makeDirs cs cur fs = (r, fs') → ∀ q, fs' q = fs q ∨
      ((∃ k, q = stepsFrom cur (cs.take k)) ∧ fs q = none ∧ fs' q = some .dir) := by
  intro cs
  induction cs with
  | nil =>
    intro cur fs r fs' hm q
    simp only [Host.makeDirs] at hm
    split at hm <;> (cases hm; exact Or.inl rfl)
  | cons c cs ih =>
    intro cur fs r fs' hm q
    simp only [Host.makeDirs] at hm
    split at hm
    · cases hm; exact Or.inl rfl
    · have lift : ∀ {cur'}, (∀ cs', stepsFrom cur (c :: cs') = stepsFrom cur' cs') →
          (∃ k, q = stepsFrom cur' (cs.take k)) → ∃ k, q = stepsFrom cur ((c :: cs).take k) := by
        rintro cur' hh ⟨k, hk⟩
        exact ⟨k + 1, by rw [List.take_succ_cons, hh]; exact hk⟩
      split at hm
      · next hc =>
        rcases ih _ _ hm q with e | ⟨e1, e2⟩
        · exact Or.inl e
        · exact Or.inr ⟨lift (fun cs' => by simp [stepsFrom, hc]) e1, e2⟩
      · next hc =>
        split at hm
        · next hc' =>
          rcases ih _ _ hm q with e | ⟨e1, e2⟩
          · exact Or.inl e
          · exact Or.inr ⟨lift (fun cs' => by simp [stepsFrom, hc']) e1, e2⟩
        · next hc' =>
          have hst : ∀ cs', stepsFrom cur (c :: cs') = stepsFrom (cur ++ [c]) cs' := by
            intro cs'; simp [stepsFrom, hc, hc']
          split at hm
          · rcases ih _ _ hm q with e | ⟨e1, e2⟩
            · exact Or.inl e
            · exact Or.inr ⟨lift hst e1, e2⟩
          · next hnone =>
            split at hm
            · by_cases hq : q = cur ++ [c]
              · subst hq
                rcases ih _ _ hm (cur ++ [c]) with e | ⟨_, e2, _⟩
                · refine Or.inr ⟨⟨1, ?_⟩, hnone, by rw [e, set_same]⟩
                  rw [List.take_succ_cons, List.take_zero, hst]; rfl
                · rw [set_same] at e2; cases e2
              · rcases ih _ _ hm q with e | ⟨e1, e2, e3⟩
                · rw [set_other hq] at e; exact Or.inl e
                · rw [set_other hq] at e2; exact Or.inr ⟨lift hst e1, e2, e3⟩
            · cases hm; exact Or.inl rfl

/-- After it has succeeded, everything on the way is a directory. -/
theorem makeDirs_dirs {h : Host} : ∀ (cs : List Str) (cur : HostPath) (fs : HostFs) {fs'},
    h.makeDirs cs cur fs = (.ok (), fs') → ∀ k, fs' (stepsFrom cur (cs.take k)) = some .dir := by
  intro cs
  induction cs with
  | nil =>
    intro cur fs fs' hm k
    simp only [Host.makeDirs] at hm
    split at hm
    · next hd => cases hm; simpa [stepsFrom] using hd
    · cases hm
  | cons c cs ih =>
    intro cur fs fs' hm k
    have hch := makeDirs_changes (c :: cs) cur fs hm
    simp only [Host.makeDirs] at hm
    split at hm
    · cases hm
    · next hd =>
      have hd : fs cur = some .dir := by simpa using hd
      have hcur : fs' cur = some .dir := by
        rcases hch cur with e | ⟨_, _, e⟩
        · rw [e, hd]
        · exact e
      cases k with
      | zero => exact hcur
      | succ k =>
        rw [List.take_succ_cons]
        simp only [stepsFrom]
        split at hm
        · next hc => rw [if_pos hc]; exact ih _ _ hm k
        · next hc =>
          rw [if_neg hc]
          split at hm
          · next hc' => rw [if_pos hc']; exact ih _ _ hm k
          · next hc' =>
            rw [if_neg hc']
            split at hm
            · exact ih _ _ hm k
            · split at hm
              · exact ih _ _ hm k
              · cases hm

/-- It succeeds if nothing on the way is a file and no fault occurs. -/
theorem makeDirs_ok {h : Host} (hf : ∀ p, h.faults p = .none) : ∀ (cs : List Str) (cur : HostPath) (fs : HostFs),
    ['.', '.'] ∉ cs → fs cur = some .dir →
    (∀ k, fs (stepsFrom cur (cs.take k)) = none ∨ fs (stepsFrom cur (cs.take k)) = some .dir) →
    ∃ fs', h.makeDirs cs cur fs = (.ok (), fs') := by
  intro cs
  induction cs with
  | nil => intro cur fs _ hd _; exact ⟨fs, by simp [Host.makeDirs, hd]⟩
  | cons c cs ih =>
    intro cur fs hdd hd hw
    simp only [List.mem_cons, not_or] at hdd
    simp only [Host.makeDirs]
    rw [if_neg (by simp [hd])]
    have hs : ∀ k, fs (stepsFrom cur (c :: cs.take k)) = none ∨ fs (stepsFrom cur (c :: cs.take k)) = some .dir := by
      intro k; have := hw (k + 1); simpa using this
    split
    · next hc =>
      exact ih _ _ hdd.2 hd (fun k => by have := hs k; simpa [stepsFrom, hc] using this)
    · next hc =>
      rw [if_neg (fun e => hdd.1 e.symm)]
      have hst : ∀ cs', stepsFrom cur (c :: cs') = stepsFrom (cur ++ [c]) cs' := by
        intro cs'; simp only [stepsFrom]; rw [if_neg hc, if_neg (fun e => hdd.1 e.symm)]
      split
      · next n hn =>
        have h1 := hs 0
        rw [List.take_zero, hst] at h1
        simp only [stepsFrom] at h1
        refine ih _ _ hdd.2 ?_ (fun k => by have := hs k; rwa [hst] at this)
        rcases h1 with h1 | h1
        · rw [h1] at hn; cases hn
        · exact h1
      · next hn =>
        rw [if_pos (hf _)]
        refine ih _ _ hdd.2 (set_same _ _ _) (fun k => ?_)
        by_cases hq : stepsFrom (cur ++ [c]) (cs.take k) = cur ++ [c]
        · rw [hq, set_same]; exact Or.inr rfl
        · rw [set_other hq]; have := hs k; rwa [hst] at this

theorem createDirAll_changes {h : Host} {path : Str} {fs fs' : HostFs} {r} (hc : h.createDirAll path fs = (r, fs')) :
    ∀ q, fs' q = fs q ∨ (OnTheWay h path q ∧ fs q = none ∧ fs' q = some .dir) := by
  unfold Host.createDirAll at hc
  split at hc
  · cases hc; exact fun q => Or.inl rfl
  · split at hc
    · cases hc; exact fun q => Or.inl rfl
    · exact makeDirs_changes _ _ _ hc

theorem resolve_walk {h : Host} {fs : HostFs} {path : Str} {p : HostPath} (hr : h.resolve fs path = .ok p) :
    hostWalk fs (h.start path) (hostComps path) = .ok p := by
  unfold Host.resolve at hr
  split at hr
  · cases hr
  · exact hr

theorem createDir_changes {h : Host} {path : Str} {fs fs' : HostFs} {r} (hc : h.createDir path fs = (r, fs')) :
    (fs' = fs ∧ r ≠ .ok ()) ∨ (r = .ok () ∧ fs (placeOf h path) = none ∧
      hostWalk fs (h.start path) (hostComps path) = .ok (placeOf h path) ∧
      fs' = fs.set (placeOf h path) .dir) := by
  unfold Host.createDir at hc
  split at hc
  · next p hp =>
    have hwk := resolve_walk hp
    rw [resolve_place hp] at hc hwk
    split at hc
    · cases hc; exact Or.inl ⟨rfl, by simp⟩
    · next hn =>
      split at hc
      · cases hc; exact Or.inr ⟨rfl, hn, hwk, rfl⟩
      · cases hc; exact Or.inl ⟨rfl, by simp⟩
  · cases hc; exact Or.inl ⟨rfl, by simp⟩
  · cases hc; exact Or.inl ⟨rfl, by simp⟩
  · cases hc; exact Or.inl ⟨rfl, by simp⟩

theorem writeFile_changes {h : Host} {path : Str} {data : Res Bytes} {fs fs' : HostFs} {r}
    (hc : h.writeFile path data fs = (r, fs')) :
    fs' = fs ∨ (fs (placeOf h path) ≠ some .dir ∧
      hostWalk fs (h.start path) (hostComps path) = .ok (placeOf h path) ∧
      ∃ b, fs' = fs.set (placeOf h path) (.file b)) := by
  unfold Host.writeFile at hc
  split at hc
  · next p hp =>
    have hwk := resolve_walk hp
    rw [resolve_place hp] at hc hwk
    split at hc
    · cases hc; exact Or.inl rfl
    · next hn =>
      simp only [not_or] at hn
      have yes : ∀ b, fs' = fs.set (placeOf h path) (.file b) →
          fs' = fs ∨ (fs (placeOf h path) ≠ some .dir ∧
            hostWalk fs (h.start path) (hostComps path) = .ok (placeOf h path) ∧
            ∃ b, fs' = fs.set (placeOf h path) (.file b)) :=
        fun b hb => Or.inr ⟨hn.1, hwk, b, hb⟩
      split at hc
      · cases hc; exact Or.inl rfl
      · split at hc
        · cases hc; exact yes _ rfl
        · cases hc; exact yes _ rfl
      · split at hc
        · cases hc; exact yes _ rfl
        · cases hc; exact yes _ rfl
        · cases hc; exact yes _ rfl
        · cases hc; exact yes _ rfl
  · cases hc; exact Or.inl rfl
  · cases hc; exact Or.inl rfl
  · cases hc; exact Or.inl rfl

end Xdvdfs
