import Verif.Spec.BuildArgs
import Verif.Proof.BuildImage
import Verif.Proof.Compress
import Verif.Proof.Desktop

/-!
# Lemmas about the arguments of `build-image`
-/

namespace Xdvdfs

open Spec

/-! ## Trimming -/

theorem trimTail_slash (r : Str) : trimTail ('/' :: r) = trimTail r := by
  rw [trimTail, if_pos rfl]

theorem trimTail_slashes (k : Nat) (r : Str) : trimTail (List.replicate k '/' ++ r) = trimTail r := by
  induction k with
  | zero => rfl
  | succ k ih => rw [List.replicate_succ, List.cons_append, trimTail_slash, ih]

/-- What trimming drops are components that are dots; it does not change where a path starts. -/
theorem trim_spec : ∀ (r : Str), ∃ k, hostComps r.reverse = hostComps (trimTail r).reverse ++ List.replicate k ['.'] ∧
    (trimTail r ≠ [] → (trimTail r).reverse.head? = r.reverse.head?) ∧
    (trimTail r = [] → r ≠ [] → r.reverse.head? = some '/') ∧
    (∀ c ∈ trimTail r, c ∈ r) := by
  intro r
  induction r with
  | nil => exact ⟨0, by simp [trimTail], nofun, fun _ h => absurd rfl h, fun c hc => hc⟩
  | cons c cs ih =>
    obtain ⟨k, h1, h2, h3, h4⟩ := ih
    have hrev : (c :: cs).reverse = cs.reverse ++ [c] := by simp
    have hhead : cs ≠ [] → (c :: cs).reverse.head? = cs.reverse.head? := by
      intro h
      rw [hrev]
      cases hr : cs.reverse with
      | nil => exact absurd (List.reverse_eq_nil_iff.1 hr) h
      | cons x xs => rfl
    rw [trimTail]
    by_cases hc : c = '/'
    · subst hc
      rw [if_pos rfl]
      refine ⟨k, ?_, ?_, ?_, fun c hc => List.mem_cons_of_mem _ (h4 c hc)⟩
      · rw [hrev, hostComps_join, hostComps_nil, List.append_nil, h1]
      · intro hne
        have : cs ≠ [] := by rintro rfl; exact hne rfl
        rw [hhead this, h2 hne]
      · intro he _
        by_cases h0 : cs = []
        · subst h0; rfl
        · rw [hhead h0]; exact h3 he h0
    · rw [if_neg hc]
      by_cases hd : c = '.' ∧ cs.head? = some '/'
      · rw [if_pos hd]
        obtain ⟨rfl, hd⟩ := hd
        obtain ⟨ds, rfl⟩ : ∃ ds, cs = '/' :: ds := by
          cases cs with
          | nil => cases hd
          | cons x xs => cases hd; exact ⟨xs, rfl⟩
        refine ⟨k + 1, ?_, ?_, ?_, fun c hc => List.mem_cons_of_mem _ (h4 c hc)⟩
        · rw [hrev]
          have e1 : ('/' :: ds).reverse ++ ['.'] = ds.reverse ++ '/' :: ['.'] := by simp
          have e2 : ('/' :: ds).reverse = ds.reverse ++ '/' :: [] := by simp
          rw [e2, hostComps_join, hostComps_nil, List.append_nil] at h1
          rw [e1, hostComps_join, h1, hostComps_plain (s := ['.']) (by decide) (by decide), List.append_assoc,
            List.replicate_succ']
        · intro hne; rw [hhead (by simp), h2 hne]
        · intro he _; rw [hhead (by simp)]; exact h3 he (by simp)
      · rw [if_neg hd]
        exact ⟨0, by simp, fun _ => rfl, nofun, fun c hc => hc⟩

theorem hostWalk_dots {fs : HostFs} {d : HostPath} (hd : fs d = some .dir) : ∀ k,
    hostWalk fs d (List.replicate k ['.']) = .ok d := by
  intro k
  induction k with
  | zero => rfl
  | succ k ih =>
    rw [List.replicate_succ, hostWalk, if_neg (by rw [hd]; simp), if_pos rfl]
    exact ih

/-- A walk that goes on with dots has arrived before. -/
theorem hostWalk_dots_end {fs : HostFs} {d e : HostPath} : ∀ k, hostWalk fs d (List.replicate k ['.']) = .ok e → e = d := by
  intro k
  induction k with
  | zero => intro h; cases h; rfl
  | succ k ih =>
    intro h
    rw [List.replicate_succ, hostWalk] at h
    split at h
    · cases h
    · rw [if_pos rfl] at h; exact ih h

/-- The string of a directory without what names nothing at its end. -/
def trimDir (s : Str) : Str := if trimTail s.reverse = [] then ['/'] else (trimTail s.reverse).reverse

theorem resolve_trimDir {h : Host} {fs : HostFs} {s : Str} {p : HostPath} (hr : h.resolve fs s = .ok p) :
    h.resolve fs (trimDir s) = .ok p := by
  obtain ⟨k, h1, h2, h3, h4⟩ := trim_spec s.reverse
  rw [List.reverse_reverse] at h1 h2 h3
  have hw := resolve_walk hr
  have hs0 : s ≠ [] ∧ Char.ofNat 0 ∉ s := by
    unfold Host.resolve at hr
    split at hr
    · cases hr
    · next hh => exact ⟨fun e => hh (.inl e), fun e => hh (.inr e)⟩
  rw [h1, hostWalk_append] at hw
  obtain ⟨q, hq, hw⟩ := Res.bind_eq_ok.1 hw
  rw [hostWalk_dots_end k hw]
  unfold trimDir
  by_cases ht : trimTail s.reverse = []
  · rw [if_pos ht]
    have hh := h3 ht (by simpa using hs0.1)
    rw [ht] at hq
    unfold Host.start at hq
    rw [if_pos hh] at hq
    have : hostComps ([] : Str).reverse = [] := hostComps_nil
    rw [this] at hq
    have e : hostComps ['/'] = [] := by decide
    unfold Host.resolve Host.start
    rw [if_neg (by decide), if_pos (by rfl), e]
    exact hq
  · rw [if_neg ht]
    have hh := h2 ht
    unfold Host.resolve
    rw [if_neg]
    · unfold Host.start at hq ⊢
      rw [hh]; exact hq
    · rintro (e | e)
      · exact ht (List.reverse_eq_nil_iff.1 e)
      · exact hs0.2 (by simpa using h4 _ (by simpa using e))

theorem pathParent_join {dir n : Str} (hn : HostName n) (hd : dir ≠ []) : pathParent (dir ++ '/' :: n) = some (trimDir dir) := by
  have e : dir ++ '/' :: n = (dir ++ ['/']) ++ n := by simp
  have ht : trimTail (dir ++ '/' :: n).reverse = (dir ++ '/' :: n).reverse := by
    have := trimTail_append (dir := dir ++ ['/']) (.inr (by simp)) hn
    rw [← e] at this
    rw [← List.reverse_inj, this, List.reverse_reverse]
  unfold pathParent
  simp only [ht]
  rw [if_neg (by simp)]
  have hdrop : (dir ++ '/' :: n).reverse.dropWhile (fun c => decide (c ≠ '/')) = '/' :: dir.reverse := by
    rw [List.reverse_append, List.reverse_cons, List.append_assoc, List.dropWhile_append_of_pos]
    · rfl
    · intro c hc
      simp only [ne_eq, decide_not, Bool.not_eq_eq_eq_not, Bool.not_true, decide_eq_false_iff_not]
      rintro rfl
      exact hn.2.1 (by simpa using hc)
  simp only [hdrop, trimTail_slash]
  unfold trimDir
  by_cases h0 : trimTail dir.reverse = []
  · rw [if_pos h0, h0]; rfl
  · rw [if_neg h0, if_neg]
    rintro ⟨h, _⟩
    exact h0 (List.reverse_eq_nil_iff.1 h)

/-! ## Names of places -/

theorem hostComps_slashes (s : Str) (k : Nat) : hostComps (s ++ List.replicate k '/') = hostComps s := by
  induction k generalizing s with
  | zero => simp
  | succ k ih =>
    have e : s ++ List.replicate (k + 1) '/' = (s ++ '/' :: []) ++ List.replicate k '/' := by
      rw [List.replicate_succ]; simp
    rw [e, ih, hostComps_join, hostComps_nil, List.append_nil]

theorem namesPlace_resolve {h : Host} {fs : HostFs} {s : Str} {p : HostPath} (hp : NamesPlace h fs s p) :
    h.resolve fs s = .ok p := by
  obtain ⟨dir, d, n, rfl, hn, hd, rfl⟩ := hp
  exact resolve_append hd hn

theorem namesPlace_stat {h : Host} {fs : HostFs} {s : Str} {p : HostPath} (hp : NamesPlace h fs s p) :
    h.stat fs s = (fs p).map (fun x => (p, x)) := by
  obtain ⟨dir, d, n, rfl, hn, hd, rfl⟩ := hp
  exact stat_append hd hn

theorem namesDir_resolve {h : Host} {fs : HostFs} {s : Str} {p : HostPath} (hp : NamedDir h fs s p) :
    h.resolve fs s = .ok p := by
  obtain ⟨_, t, k, rfl, ht⟩ := hp
  have h1 := namesPlace_resolve ht
  have hw := resolve_walk h1
  unfold Host.resolve at h1
  split at h1
  · cases h1
  · next hh =>
    unfold Host.resolve
    rw [if_neg]
    · rw [hostComps_slashes]
      have : h.start (t ++ List.replicate k '/') = h.start t := by
        unfold Host.start
        cases t with
        | nil => exact absurd (.inl rfl) hh
        | cons c cs => rfl
      rw [this]; exact hw
    · rintro (e | e)
      · exact hh (.inl (List.append_eq_nil_iff.1 e).1)
      · rcases List.mem_append.1 e with e | e
        · exact hh (.inr e)
        · have := (List.mem_replicate.1 e).2
          revert this; decide

theorem stat_of_dir {h : Host} {fs : HostFs} {s : Str} {p : HostPath} (hr : h.resolve fs s = .ok p)
    (hd : fs p = some .dir) : h.stat fs s = some (p, .dir) := by
  unfold Host.stat
  rw [hr]; simp only [hd]

theorem namesFolder_stat {parse : Bytes → Option ImageSpec} {h : Host} {fs : HostFs} {b : BuildArgs} {s : Str}
    {p : HostPath} (hp : NamesFolder parse h fs b s p) : h.stat fs s = some (p, .dir) := by
  rcases hp with hp | ⟨_, hp⟩
  · exact stat_of_dir (namesDir_resolve hp) hp.1
  · exact hp

/-- A name in a directory that a string names. -/
theorem namesPlace_join {h : Host} {fs : HostFs} {s n : Str} {p : HostPath} (hs : h.stat fs s = some (p, .dir))
    (hn : HostName n) : NamesPlace h fs (pathJoin s n) (p ++ [n]) := by
  obtain ⟨hr, _, hd⟩ := stat_some hs
  have hs0 : s ≠ [] ∧ Char.ofNat 0 ∉ s := by
    unfold Host.resolve at hr
    split at hr
    · cases hr
    · next hh => exact ⟨fun e => hh (.inl e), fun e => hh (.inr e)⟩
  unfold pathJoin
  rw [if_neg (head_of_plain hn.2.1)]
  by_cases hl : s.getLast? = some '/'
  · rw [if_pos (.inr hl)]
    exact ⟨s, p, n, rfl, hn, ⟨.inr hl, hd, .inr ⟨hs0.1, hr⟩⟩, rfl⟩
  · rw [if_neg (fun e => e.elim hs0.1 hl)]
    refine ⟨s ++ ['/'], p, n, by simp, hn, ⟨.inr (by simp), hd, .inr ⟨by simp, ?_⟩⟩, rfl⟩
    have hw := resolve_walk hr
    unfold Host.resolve
    rw [if_neg]
    · have e1 : hostComps (s ++ ['/']) = hostComps s := by rw [hostComps_join, hostComps_nil, List.append_nil]
      have e2 : h.start (s ++ ['/']) = h.start s := by
        unfold Host.start
        cases s with
        | nil => exact absurd rfl hs0.1
        | cons c cs => rfl
      rw [e1, e2]; exact hw
    · rintro (e | e)
      · simp at e
      · rcases List.mem_append.1 e with e | e
        · exact hs0.2 e
        · revert e; decide

/-- As typed with a slash in between. -/
theorem namesPlace_slash {h : Host} {fs : HostFs} {s n : Str} {p : HostPath} (hs : h.stat fs s = some (p, .dir))
    (hn : HostName n) : NamesPlace h fs (s ++ '/' :: n) (p ++ [n]) := by
  obtain ⟨hr, _, hd⟩ := stat_some hs
  have hs0 : s ≠ [] ∧ Char.ofNat 0 ∉ s := by
    unfold Host.resolve at hr
    split at hr
    · cases hr
    · next hh => exact ⟨fun e => hh (.inl e), fun e => hh (.inr e)⟩
  refine ⟨s ++ ['/'], p, n, by simp, hn, ⟨.inr (by simp), hd, .inr ⟨by simp, ?_⟩⟩, rfl⟩
  have hw := resolve_walk hr
  unfold Host.resolve
  rw [if_neg]
  · have e1 : hostComps (s ++ ['/']) = hostComps s := by rw [hostComps_join, hostComps_nil, List.append_nil]
    have e2 : h.start (s ++ ['/']) = h.start s := by
      unfold Host.start
      cases s with
      | nil => exact absurd rfl hs0.1
      | cons c cs => rfl
    rw [e1, e2]; exact hw
  · rintro (e | e)
    · simp at e
    · rcases List.mem_append.1 e with e | e
      · exact hs0.2 e
      · revert e; decide

/-- Trimming keeps a name. -/
theorem namesDir_trim {h : Host} {fs : HostFs} {s : Str} {p : HostPath} (hp : NamedDir h fs s p) :
    NamedDir h fs (trimDir s) p := by
  obtain ⟨hd, t, k, rfl, ht⟩ := hp
  have ht' := ht
  obtain ⟨dir, d, n, rfl, hn, hdir, rfl⟩ := ht'
  have e : trimDir (dir ++ n ++ List.replicate k '/') = dir ++ n := by
    unfold trimDir
    have e1 : trimTail (dir ++ n ++ List.replicate k '/').reverse = (dir ++ n).reverse := by
      rw [List.reverse_append, List.reverse_replicate, trimTail_slashes, ← List.reverse_inj, trimTail_append hdir.1 hn,
        List.reverse_reverse]
    rw [e1, if_neg (by simp [hn.1]), List.reverse_reverse]
  rw [e]
  exact ⟨hd, _, 0, by simp, ht⟩

theorem namesFolder_trim {parse : Bytes → Option ImageSpec} {h : Host} {fs : HostFs} {b : BuildArgs} {s : Str}
    {p : HostPath} (hp : NamesFolder parse h fs b s p) : NamesFolder parse h fs b (trimDir s) p := by
  rcases hp with hp | ⟨hg, hp⟩
  · exact .inl (namesDir_trim hp)
  · exact .inr ⟨hg, stat_of_dir (resolve_trimDir (stat_some hp).1) (stat_some hp).2.2⟩

/-! ## The default output -/

theorem splitExt_chars {n e : Str} (he : (splitExt n).2 = some e) {c : Char} (hc : c ∈ e) : c ∈ n := by
  rw [(splitExt_spec n).2 e he]; simp [hc]

theorem withExtension_name {n ext : Str} (hn : HostName n) (h1 : '/' ∉ ext) (h2 : Char.ofNat 0 ∉ ext) (h3 : ext ≠ []) :
    HostName (withExtension n ext true) := by
  have hs := stem_ok hn (splitExt_stem n hn.2.2.2.2)
  unfold withExtension
  rw [if_pos rfl]
  split
  · unfold stdWithExtension
    rw [if_neg h3]
    exact dotted_name hs h1 h2 h3
  · next e he =>
    unfold stdWithExtension
    rw [if_neg (by simp)]
    refine dotted_name hs ?_ ?_ (by simp)
    · intro hm
      rcases List.mem_append.1 hm with hm | hm
      · exact hn.2.1 (splitExt_chars he hm)
      · rcases List.mem_cons.1 hm with hm | hm
        · revert hm; decide
        · exact h1 hm
    · intro hm
      rcases List.mem_append.1 hm with hm | hm
      · exact hn.2.2.1 (splitExt_chars he hm)
      · rcases List.mem_cons.1 hm with hm | hm
        · revert hm; decide
        · exact h2 hm

theorem fileName_slashes (s : Str) (k : Nat) : fileName (s ++ List.replicate k '/') = fileName s := by
  unfold fileName; rw [hostComps_slashes]

theorem pathWithExtension_slashes {dir n : Str} (ext : Str) (k : Nat) (hd : DirPrefix dir) (hn : HostName n) :
    pathWithExtension (dir ++ n ++ List.replicate k '/') ext = dir ++ stdWithExtension n ext := by
  rw [← pathWithExtension_append ext hd hn]
  unfold pathWithExtension
  rw [fileName_slashes, fileName_append hd hn]
  simp only
  rw [List.reverse_append (as := dir ++ n), List.reverse_replicate, trimTail_slashes]

theorem pathAddExtension_slashes {dir n : Str} (ext : Str) (k : Nat) (hd : DirPrefix dir) (hn : HostName n) :
    pathAddExtension (dir ++ n ++ List.replicate k '/') ext = dir ++ withExtension n ext true := by
  have h1 : pathExtension (dir ++ n ++ List.replicate k '/') = (splitExt n).2 := by
    rw [← pathExtension_append hd hn]
    unfold pathExtension
    rw [fileName_slashes]
  unfold pathAddExtension withExtension
  rw [h1, if_pos rfl]
  cases (splitExt n).2 <;> exact pathWithExtension_slashes _ _ hd hn

/-! ## Opening the output -/

theorem openOutput_place {h : Host} {fs : HostFs} {s : Str} {p : HostPath} (hp : NamesPlace h fs s p)
    (hf : h.faults p ≠ .refuse) : h.openOutput s fs = buildOpen fs (.ok p) := by
  obtain ⟨dir, d, n, rfl, hn, hd, rfl⟩ := hp
  unfold Host.openOutput buildOpen
  rw [resolve_append hd hn, Res.ok_bind]
  simp only
  rw [splitSlash_name hd.1 hn.2.1]
  by_cases hdir : fs (d ++ [n]) = some .dir
  · rw [if_pos (.inl hdir), if_pos (.inl hdir)]
  · rw [if_neg, if_neg]
    · rfl
    · rintro (e | e)
      · exact hdir e
      · rw [List.dropLast_concat] at e; exact e hd.2.1
    · rintro (e | e | e | e | e)
      · exact hdir e
      · exact hn.1 (Option.some.inj e)
      · exact hn.2.2.2.1 (Option.some.inj e)
      · exact hn.2.2.2.2 (Option.some.inj e)
      · exact hf e

theorem splitSlash_nonempty : ∀ (s : Str), splitSlash s ≠ [] := by
  intro s
  cases s with
  | nil => simp [splitSlash]
  | cons c cs =>
    rw [splitSlash]
    split
    · simp
    · split <;> simp

theorem splitSlash_join_last {a b : Str} (ha : a ≠ []) : (splitSlash (pathJoin a b)).getLast? = (splitSlash b).getLast? := by
  have key : ∀ x : Str, (splitSlash (x ++ '/' :: b)).getLast? = (splitSlash b).getLast? := by
    intro x
    rw [splitSlash_join, List.getLast?_append]
    cases hb : (splitSlash b).getLast? with
    | none => exact absurd (List.getLast?_eq_none_iff.1 hb) (splitSlash_nonempty b)
    | some y => rfl
  unfold pathJoin
  split
  · rfl
  · split
    · next hh =>
      obtain ⟨x, rfl⟩ := getLast_split (hh.resolve_left ha)
      rw [← key x]; simp
    · exact key a

theorem walk_to_name {fs : HostFs} {cs : List Str} {cur p : HostPath} {n : Str} (hn : n ≠ ['.'] ∧ n ≠ ['.', '.'])
    (h : hostWalk fs cur (cs ++ [n]) = .ok p) : fs p.dropLast = some .dir := by
  rw [hostWalk_append] at h
  obtain ⟨q, _, h⟩ := Res.bind_eq_ok.1 h
  simp only [hostWalk] at h
  split at h
  · cases h
  · next hd =>
    rw [if_neg hn.1, if_neg hn.2] at h
    cases h
    rw [List.dropLast_concat]
    exact Classical.not_not.1 hd

/-- The output that a specification gives. -/
theorem openOutput_spec {h : Host} {fs : HostFs} {s out : Str} {p : HostPath} (hr : h.resolve fs s = .ok p)
    (hf : ∀ q, h.faults q ≠ .refuse) : h.openOutput (pathJoin s out) fs = buildOpen fs
      (if Char.ofNat 0 ∈ out ∨ (splitSlash out).getLast? = some [] ∨ (splitSlash out).getLast? = some ['.'] ∨
          (splitSlash out).getLast? = some ['.', '.'] then .err .io
        else hostWalk fs (if out.head? = some '/' then [] else p) (hostComps out)) := by
  have hs0 : s ≠ [] ∧ Char.ofNat 0 ∉ s := by
    unfold Host.resolve at hr
    split at hr
    · cases hr
    · next hh => exact ⟨fun e => hh (.inl e), fun e => hh (.inr e)⟩
  by_cases hN : Char.ofNat 0 ∈ out
  · rw [if_pos (.inl hN)]
    have : h.resolve fs (pathJoin s out) = .err .io := by
      have hm : Char.ofNat 0 ∈ pathJoin s out := by
        unfold pathJoin
        split
        · exact hN
        · split <;> simp [hN]
      unfold Host.resolve
      rw [if_pos (.inr hm)]
    unfold Host.openOutput
    rw [this]; rfl
  · by_cases hL : (splitSlash out).getLast? = some [] ∨ (splitSlash out).getLast? = some ['.'] ∨
        (splitSlash out).getLast? = some ['.', '.']
    · rw [if_pos (.inr hL)]
      unfold Host.openOutput
      split
      · rw [splitSlash_join_last hs0.1, if_pos]
        · rfl
        · rcases hL with e | e | e
          · exact .inr (.inl e)
          · exact .inr (.inr (.inl e))
          · exact .inr (.inr (.inr (.inl e)))
      · next e he =>
        unfold Host.resolve at he
        split at he
        · cases he; rfl
        · have : ∀ cs cur, hostWalk fs cur cs = .err e → e = .io := by
            intro cs
            induction cs with
            | nil => intro cur h; cases h
            | cons c cs ih =>
              intro cur h
              simp only [hostWalk] at h
              split at h
              · cases h; rfl
              · split at h
                · exact ih _ h
                · split at h <;> exact ih _ h
          rw [this _ _ he]; rfl
      all_goals
        next he =>
          exfalso
          unfold Host.resolve at he
          split at he
          · cases he
          · revert he
            generalize h.start (pathJoin s out) = cur
            generalize hostComps (pathJoin s out) = cs
            induction cs generalizing cur with
            | nil => intro h; cases h
            | cons c cs ih =>
              intro h
              simp only [hostWalk] at h
              split at h
              · cases h
              · split at h
                · exact ih _ h
                · split at h <;> exact ih _ h
    · rw [if_neg (fun e => e.elim hN hL)]
      obtain ⟨n, hn⟩ : ∃ n, (splitSlash out).getLast? = some n := by
        cases hb : (splitSlash out).getLast? with
        | none => exact absurd (List.getLast?_eq_none_iff.1 hb) (splitSlash_nonempty out)
        | some y => exact ⟨y, rfl⟩
      rw [hn] at hL
      simp only [Option.some.injEq, not_or] at hL
      have hne : out ≠ [] := by
        rintro rfl
        simp [splitSlash] at hn
        exact hL.1 hn
      have hcomps : ∃ cs, hostComps out = cs ++ [n] := by
        obtain ⟨xs, hx⟩ : ∃ xs, splitSlash out = xs ++ [n] := by
          rcases List.eq_nil_or_concat (splitSlash out) with e | ⟨b, d, e⟩
          · rw [e] at hn; cases hn
          · rw [e, List.concat_eq_append, List.getLast?_concat] at hn
            cases hn
            exact ⟨b, by rw [e, List.concat_eq_append]⟩
        refine ⟨xs.filter (fun c => decide (c ≠ [])), ?_⟩
        unfold hostComps
        rw [hx, List.filter_append, List.filter_cons_of_pos (by simpa using hL.1)]
        rfl
      have hres : h.resolve fs (pathJoin s out) =
          hostWalk fs (if out.head? = some '/' then [] else p) (hostComps out) := by
        by_cases ha : out.head? = some '/'
        · have : pathJoin s out = out := by unfold pathJoin; rw [if_pos ha]
          unfold Host.resolve
          rw [this, if_neg (fun e => e.elim hne hN), if_pos ha]
          unfold Host.start
          rw [if_pos ha]
        · unfold Host.resolve
          rw [if_neg, if_neg ha, hostComps_pathJoin ha, start_pathJoin ha, hostWalk_append, resolve_walk hr, Res.ok_bind]
          rintro (e | e)
          · exact pathJoin_ne_nil hne e
          · rcases mem_pathJoin e (by decide) with e | e
            · exact hs0.2 e
            · exact hN e
      unfold Host.openOutput buildOpen
      rw [hres]
      cases hw : hostWalk fs (if out.head? = some '/' then [] else p) (hostComps out) with
      | err e => rfl
      | panic => rfl
      | hang => rfl
      | ok q =>
        obtain ⟨cs, hc⟩ := hcomps
        rw [hc] at hw
        have hq := walk_to_name hL.2 hw
        rw [Res.ok_bind]
        simp only
        rw [splitSlash_join_last hs0.1, hn]
        by_cases hdir : fs q = some .dir
        · rw [if_pos (.inl hdir), if_pos (.inl hdir)]
        · rw [if_neg, if_neg]
          · rfl
          · rintro (e | e)
            · exact hdir e
            · exact e hq
          · rintro (e | e | e | e | e)
            · exact hdir e
            · exact hL.1 (Option.some.inj e)
            · exact hL.2.1 (Option.some.inj e)
            · exact hL.2.2 (Option.some.inj e)
            · exact hf _ e

/-! ## The working directory -/

theorem hostWalk_names {fs : HostFs} (hw : WellFormedHost fs) : ∀ (n : Nat) {p : HostPath}, p.length = n →
    fs p = some .dir → (∀ c ∈ p, HostName c) → hostWalk fs [] p = .ok p := by
  intro n
  induction n with
  | zero => intro p hp _ _; rw [List.length_eq_zero_iff.1 hp]; rfl
  | succ n ih =>
    intro p hp hd hc
    rcases List.eq_nil_or_concat p with rfl | ⟨q, c, rfl⟩
    · rfl
    · rw [List.concat_eq_append] at hp hd hc ⊢
      have hq := hw.2 q c (by rw [hd]; nofun)
      have hn := hc c (by simp)
      rw [hostWalk_append, ih (by simp at hp; omega) hq (fun x hx => hc x (by simp [hx])), Res.ok_bind]
      simp only [hostWalk]
      rw [if_neg (by rw [hq]; simp), if_neg hn.2.2.2.1, if_neg hn.2.2.2.2]

theorem resolve_names {h : Host} {fs : HostFs} (hw : WellFormedHost fs) {p : HostPath} (hd : fs p = some .dir)
    (hc : ∀ c ∈ p, HostName c) : h.resolve fs (p.flatMap (fun c => '/' :: c) ++ ['/']) = .ok p := by
  unfold Host.resolve
  rw [if_neg]
  · have e1 : hostComps (p.flatMap (fun c => '/' :: c) ++ ['/']) = p := by
      rw [hostComps_join, hostComps_nil, List.append_nil,
        hostComps_flatMap (fun c hm => ⟨(hc c hm).1, (hc c hm).2.1⟩)]
    have e2 : h.start (p.flatMap (fun c => '/' :: c) ++ ['/']) = [] := by
      unfold Host.start
      rw [if_pos]
      cases p <;> rfl
    rw [e1, e2]
    exact hostWalk_names hw _ rfl hd hc
  · rintro (e | e)
    · simp at e
    · rcases List.mem_append.1 e with e | e
      · obtain ⟨c, hm, hx⟩ := List.mem_flatMap.1 e
        rcases List.mem_cons.1 hx with hx | hx
        · revert hx; decide
        · exact (hc c hm).2.2.1 hx
      · revert e; decide

theorem cwd_named {h : Host} {fs : HostFs} (hw : WellFormedHost fs) (hn : ProperNames fs) {p : HostPath}
    (hd : fs p = some .dir) : NamedDir h fs (pathStr p) p ∨ (pathStr p = ['/'] ∧ p = []) := by
  have hc := properNames_comps hn hw _ rfl (p := p) (by rw [hd]; nofun)
  rcases List.eq_nil_or_concat p with rfl | ⟨q, c, rfl⟩
  · exact .inr ⟨rfl, rfl⟩
  · rw [List.concat_eq_append] at hd hc ⊢
    refine .inl ⟨hd, _, 0, (List.append_nil _).symm, q.flatMap (fun c => '/' :: c) ++ ['/'], q, c, ?_, hc c (by simp), ?_,
      rfl⟩
    · unfold pathStr
      rw [if_neg (by simp), List.flatMap_append]
      simp
    · have hq := hw.2 q c (by rw [hd]; nofun)
      exact ⟨.inr (by simp), hq, .inr ⟨by simp, resolve_names hw hq (fun x hx => hc x (by simp [hx]))⟩⟩

theorem root_stat (h : Host) {fs : HostFs} (hw : WellFormedHost fs) : h.stat fs ['/'] = some ([], .dir) := by
  refine stat_of_dir ?_ hw.1
  have e : hostComps ['/'] = [] := by decide
  unfold Host.resolve Host.start
  rw [if_neg (by decide), if_pos (by rfl), e]
  rfl

/-! ## The run -/

theorem specName_name : HostName specName := ⟨by decide, by decide, by decide, by decide, by decide⟩

/-- The string `s` can be used for the mapped directory `p`. -/
def UsableSource (parse : Bytes → Option ImageSpec) (h : Host) (fs : HostFs) (b : BuildArgs) (s : Str) (p : HostPath) :
    Prop :=
  h.stat fs s = some (p, .dir) ∧ (NamesFolder parse h fs b s p ∨ (s = ['/'] ∧ p = []))

theorem usable_folder {parse : Bytes → Option ImageSpec} {h : Host} {fs : HostFs} {b : BuildArgs} {s : Str} {p : HostPath}
    (hp : NamesFolder parse h fs b s p) : UsableSource parse h fs b s p := ⟨namesFolder_stat hp, .inl hp⟩

theorem build_paths {parse : Bytes → Option ImageSpec} {h : Host} {fs : HostFs} {a : BuildStrings} {b : BuildArgs}
    (hw : WellFormedHost fs) (hn : ProperNames fs) (hcwd : fs h.cwd = some .dir) (hab : NamesArgs parse h fs a b) :
    ∃ specStr S specP src, buildPathStrings h fs a = .ok (specStr, S) ∧ buildPaths fs b = .ok (specP, src) ∧
      h.stat fs specStr = (fs specP).map (fun x => (specP, x)) ∧ UsableSource parse h fs b S src ∧ SpecFile fs b specP := by
  have key : ∀ s, a.source.getD (pathStr h.cwd) = s → UsableSource parse h fs b s b.source →
      ∃ specStr S specP src, buildPathStrings h fs a = .ok (specStr, S) ∧ buildPaths fs b = .ok (specP, src) ∧
      h.stat fs specStr = (fs specP).map (fun x => (specP, x)) ∧ UsableSource parse h fs b S src ∧
      SpecFile fs b specP := by
    intro s hs hu
    have hd := (stat_some hu.1).2.2
    rcases hab.spec with ⟨e1, e2⟩ | ⟨x, p, e1, e2, hx⟩
    · refine ⟨pathJoin s specName, s, b.source ++ [specName], b.source, ?_, ?_,
        namesPlace_stat (namesPlace_join hu.1 specName_name), hu, .inr (.inl ⟨e2, hd, rfl⟩)⟩
      · unfold buildPathStrings
        simp only [hs, hu.1, e1, Option.getD_none]
      · unfold buildPaths
        rw [if_pos hd, e2]; rfl
    · refine ⟨x, s, p, b.source, ?_, ?_, namesPlace_stat hx, hu, .inl e2⟩
      · unfold buildPathStrings
        simp only [hs, hu.1, e1, Option.getD_some]
      · unfold buildPaths
        rw [if_pos hd, e2]; rfl
  rcases hab.source with ⟨e1, e2⟩ | ⟨s, e1, hs⟩
  · refine key (pathStr h.cwd) (by rw [e1]; rfl) ?_
    rw [e2]
    rcases cwd_named hw hn hcwd (h := h) with hd | ⟨hd, h0⟩
    · exact usable_folder (.inl hd)
    · rw [hd, h0]; exact ⟨root_stat h hw, .inr ⟨rfl, rfl⟩⟩
  · rcases hs with hs | ⟨hnd, dir, d, n, rfl, hname, hdir, hsrc⟩
    · exact key s (by rw [e1]; rfl) (usable_folder hs)
    · have hdn : dir ≠ [] := by
        rintro rfl
        have := (stat_some (namesFolder_stat hdir)).1
        unfold Host.resolve at this
        rw [if_pos (.inl rfl)] at this
        cases this
      have hplace := namesPlace_slash (namesFolder_stat hdir) hname
      rw [← hsrc] at hplace
      have hstat := namesPlace_stat hplace
      have hbs : ∀ sp, buildPathStrings h fs { a with spec := sp } = .ok (sp.getD (dir ++ '/' :: n), trimDir dir) := by
        intro sp
        unfold buildPathStrings
        simp only [e1, Option.getD_some]
        split
        · next q hq =>
          rw [hstat] at hq
          exfalso
          obtain ⟨y, hy, hye⟩ := Option.map_eq_some_iff.1 hq
          cases hye
          exact hnd hy
        · rw [pathParent_join hname hdn]
      have hbp : buildPaths fs b = .ok (b.spec.getD b.source, d) := by
        unfold buildPaths
        rw [if_neg hnd, if_neg (by rw [hsrc]; simp), hsrc, List.dropLast_concat]
      have hb := hbs a.spec
      rcases hab.spec with ⟨h1, h2⟩ | ⟨x, p, h1, h2, hx⟩
      · refine ⟨_, _, _, _, hb, hbp, ?_, usable_folder (namesFolder_trim hdir), .inr (.inr ⟨h2, hnd, by rw [h2]; rfl⟩)⟩
        rw [h1, h2]; exact hstat
      · refine ⟨_, _, _, _, hb, hbp, ?_, usable_folder (namesFolder_trim hdir), .inl (by rw [h2]; rfl)⟩
        rw [h1, h2]; exact namesPlace_stat hx

theorem build_spec {parse : Bytes → Option ImageSpec} {h : Host} {fs : HostFs} {a : BuildStrings} {b : BuildArgs}
    {s : Str} {p : HostPath} (hs : h.stat fs s = (fs p).map (fun x => (p, x))) (hr : a.rules = b.rules) :
    buildSpecString parse h fs a s = buildSpec parse fs b p := by
  unfold buildSpecString buildSpec
  rw [hs, hr]
  cases hf : fs p with
  | none => rfl
  | some x =>
    cases x with
    | dir => cases b.rules <;> rfl
    | file y => cases b.rules <;> simp; cases parse y <;> rfl

theorem default_output {h : Host} {fs : HostFs} {s : Str} {p : HostPath} (hs : NamedDir h fs s p)
    (hf : ∀ q, h.faults q ≠ .refuse) :
    h.openOutput (pathAddExtension s ['x', 'i', 's', 'o', '.', 'i', 's', 'o']) fs =
      buildOpen fs (.ok (onFileName (fun n => withExtension n ['x', 'i', 's', 'o', '.', 'i', 's', 'o'] true) p)) := by
  obtain ⟨_, t, k, rfl, dir, d, n, rfl, hn, hd, rfl⟩ := hs
  rw [pathAddExtension_slashes _ k hd.1 hn]
  have e : onFileName (fun n => withExtension n ['x', 'i', 's', 'o', '.', 'i', 's', 'o'] true) (d ++ [n]) =
      d ++ [withExtension n ['x', 'i', 's', 'o', '.', 'i', 's', 'o'] true] := by
    unfold onFileName
    simp
  rw [e]
  exact openOutput_place ⟨dir, d, _, rfl, withExtension_name hn (by decide) (by decide) (by decide), hd, rfl⟩ (hf _)

theorem build_output {parse : Bytes → Option ImageSpec} {h : Host} {fs : HostFs} {a : BuildStrings} {b : BuildArgs}
    (hw : WellFormedHost fs) (hf : ∀ q, h.faults q ≠ .refuse) (hab : NamesArgs parse h fs a b) {S : Str}
    {src specP : HostPath} (hu : UsableSource parse h fs b S src) (hsp : SpecFile fs b specP) {spec : Option ImageSpec}
    (hs : buildSpec parse fs b specP = .ok spec) {rules : List (Str × Str)} (hr : buildRuleList b spec = .ok rules)
    (hdry : b.dryRun ≠ true) :
    h.openOutput (buildOutputString a spec S) fs = buildOpen fs (buildOutput fs b spec src) := by
  unfold buildOutputString buildOutput
  rcases hab.image with ⟨e1, e2⟩ | ⟨x, p, e1, e2, hx⟩
  · rw [e1, e2]
    simp only
    cases ho : spec.bind ImageSpec.output with
    | some out => exact openOutput_spec (stat_some hu.1).1 hf
    | none =>
      simp only
      rcases hu.2 with (hnd | ⟨hg, _⟩) | ⟨rfl, rfl⟩
      · exact default_output hnd hf
      · exfalso
        rcases hg with hg | hg | ⟨hr0, hg⟩
        · exact hdry hg
        · exact hg e2
        · unfold buildSpec at hs
          split at hs
          · split at hs
            · next x hx =>
              split at hs
              · next sp hsp' =>
                cases hs
                exact hg specP x sp hsp hx hsp' ho
              · cases hs
            · cases hs
          · cases hs
            rw [buildRuleList, hr0] at hr
            simp [parseMapRules, specRules] at hr
      · have e : pathAddExtension ['/'] ['x', 'i', 's', 'o', '.', 'i', 's', 'o'] = ['/'] := by decide
        rw [e]
        have e' : ∀ f : Str → Str, onFileName f ([] : HostPath) = [] := fun _ => rfl
        rw [e']
        unfold Host.openOutput buildOpen
        rw [(stat_some (root_stat h hw)).1, Res.ok_bind]
        simp only
        rw [if_pos (.inl hw.1), if_pos (.inl hw.1)]
  · rw [e1, e2]
    exact openOutput_place hx (hf _)

theorem build_strings {parse : Bytes → Option ImageSpec} {h : Host} {fs : HostFs} {a : BuildStrings} {b : BuildArgs}
    (hw : WellFormedHost fs) (hn : ProperNames fs) (hcwd : fs h.cwd = some .dir) (hf : ∀ q, h.faults q ≠ .refuse)
    (hab : NamesArgs parse h fs a b) (t : Tool) (G : GlobEngine) (r : DirReader) (self : Bytes) (faults : Faults) :
    cmdBuildStrings h t G parse r self faults fs a = cmdBuildImage t G parse r self faults fs b := by
  obtain ⟨specStr, S, specP, src, h1, h2, h3, h4, h5⟩ := build_paths hw hn hcwd hab
  unfold cmdBuildStrings cmdBuildImage buildPlan
  rw [h1, h2]
  simp only [Res.ok_bind]
  rw [build_spec h3 hab.rules]
  cases hs : buildSpec parse fs b specP with
  | err e => rfl
  | panic => rfl
  | hang => rfl
  | ok spec =>
    simp only [Res.ok_bind]
    have : buildRuleStrings a spec = buildRuleList b spec := by
      unfold buildRuleStrings buildRuleList
      rw [hab.rules]
    rw [this]
    cases hr : buildRuleList b spec with
    | err e => rfl
    | panic => rfl
    | hang => rfl
    | ok rules =>
      simp only [Res.ok_bind, Res.pure_eq, hab.dryRun]
      unfold runBuildStrings runBuild
      rw [(stat_some h4.1).1]
      simp only
      cases remapNew G rules (stdReadDir r fs src) t.fuel with
      | err e => rfl
      | panic => rfl
      | hang => rfl
      | ok trie =>
        simp only
        by_cases hdry : b.dryRun = true
        · rw [if_pos hdry, if_pos hdry]
          cases remapDump trie t.fuel <;> rfl
        · rw [if_neg hdry, if_neg hdry, build_output hw hf hab h4 h5 hs hr hdry]
          cases buildOpen fs (buildOutput fs b spec src) with
          | err e => rfl
          | panic => rfl
          | hang => rfl
          | ok o =>
            obtain ⟨out, fs1⟩ := o
            simp only
            cases (packFile (remapFs (buildSource r fs src out self) trie t.fuel) (cliPolicy t.early) faults t.fuel).1 <;>
              rfl

/-! ## Sources that cannot be used -/

theorem pathParent_bare {n : Str} (hn : HostName n) : pathParent n = some [] := by
  have ht : trimTail n.reverse = n.reverse := by
    have := trimTail_append (dir := []) (.inl rfl) hn
    rw [List.nil_append] at this
    rw [← List.reverse_inj, this, List.reverse_reverse]
  have hdrop : n.reverse.dropWhile (fun c => decide (c ≠ '/')) = [] := by
    rw [← List.append_nil n.reverse, List.dropWhile_append_of_pos, List.dropWhile_nil]
    intro c hc
    simp only [ne_eq, decide_not, Bool.not_eq_eq_eq_not, Bool.not_true, decide_eq_false_iff_not]
    rintro rfl
    exact hn.2.1 (by simpa using hc)
  unfold pathParent
  simp only [ht, hdrop]
  rw [if_neg (by simpa using hn.1)]
  rfl

/-- A path without a file name cannot be created. -/
theorem openOutput_noName {h : Host} {fs : HostFs} {s : Str} (hs : fileName s = none) :
    ∀ o, h.openOutput s fs ≠ .ok o := by
  intro o ho
  have hlast : (splitSlash s).getLast? = some [] ∨ (splitSlash s).getLast? = some ['.'] ∨
      (splitSlash s).getLast? = some ['.', '.'] := by
    obtain ⟨n, hn⟩ : ∃ n, (splitSlash s).getLast? = some n := by
      cases hb : (splitSlash s).getLast? with
      | none => exact absurd (List.getLast?_eq_none_iff.1 hb) (splitSlash_nonempty s)
      | some y => exact ⟨y, rfl⟩
    by_cases h1 : n = []
    · left; rw [hn, h1]
    by_cases h2 : n = ['.']
    · right; left; rw [hn, h2]
    by_cases h3 : n = ['.', '.']
    · right; right; rw [hn, h3]
    · exfalso
      obtain ⟨xs, hx⟩ : ∃ xs, splitSlash s = xs ++ [n] := by
        rcases List.eq_nil_or_concat (splitSlash s) with e | ⟨b, d, e⟩
        · rw [e] at hn; cases hn
        · rw [e, List.concat_eq_append, List.getLast?_concat] at hn
          cases hn
          exact ⟨b, by rw [e, List.concat_eq_append]⟩
      have : fileName s = some n := by
        unfold fileName hostComps
        rw [hx]
        simp [List.filter_append, h1, h2, h3]
      rw [this] at hs
      cases hs
  unfold Host.openOutput at ho
  split at ho
  · rw [if_pos] at ho
    · cases ho
    · rcases hlast with e | e | e
      · exact .inr (.inl e)
      · exact .inr (.inr (.inl e))
      · exact .inr (.inr (.inr (.inl e)))
  all_goals cases ho

end Xdvdfs
