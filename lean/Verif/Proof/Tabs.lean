import Verif.Spec.Tabs
import Verif.Proof.WebUi

/-!
# The application and its pages: helper lemmas
-/

namespace Xdvdfs
open Spec

/-- The messages of jobs start no jobs. -/
def MidKeeps (d : PageDef S M J F D) : Prop := ∀ s m p j, d.midMsg m = true → d.update s m = .ok (p, j) → j = none

theorem pack_midKeeps (fname : F → Str) (dname : D → Str) : MidKeeps (packDef fname dname) := by
  intro s m p j hm h
  cases m with
  | updateProgress r => cases h; rfl
  | changeState st => cases h; rfl
  | _ => cases hm

theorem unpack_midKeeps : MidKeeps (unpackDef (F := F) (D := D)) := by
  intro s m p j hm h
  cases m with
  | updateProgress r => cases h; rfl
  | changeState st => cases h; rfl
  | _ => cases hm

theorem comp_midKeeps : MidKeeps (compDef (F := F) (D := D)) := by
  intro s m p j hm h
  cases m with
  | updateProgress r => cases h; rfl
  | updateCompression r => cases h; rfl
  | changeState st => cases h; rfl
  | _ => cases hm

theorem deliver_jobs {d : PageDef S M J F D} (hk : MidKeeps d) {s s' : UiSys S J} {m : M} (hm : d.midMsg m = true)
    (h : s.deliver d m = .ok s') : s'.jobs = s.jobs := by
  unfold UiSys.deliver at h
  obtain ⟨⟨p, j⟩, h1, h2⟩ := Res.bind_eq_ok.1 h
  obtain ⟨_, _, h3⟩ := Res.bind_eq_ok.1 h2
  cases h3
  rw [hk _ _ _ _ hm h1]
  simp

/-- Messages of jobs, delivered one after the other, are reports in the history of a page. -/
theorem deliverAll_run {d : PageDef S M J F D} (hk : MidKeeps d) : ∀ (xs : List (Nat × M)) (s : UiSys S J),
    (∀ x ∈ xs, x.1 < s.jobs.length ∧ d.midMsg x.2 = true) →
    runUi d (xs.map fun x => .report x.1 x.2) s = some (UiSys.deliverAll d (xs.map Prod.snd) s) := by
  intro xs
  induction xs with
  | nil => intro s _; rfl
  | cons x xs ih =>
    intro s h
    obtain ⟨h1, h2⟩ := h x (by simp)
    simp only [List.map_cons, runUi, UiSys.step, UiSys.deliverAll]
    rw [if_pos ⟨h1, h2⟩]
    cases hd : s.deliver d x.2 with
    | ok s' =>
      have hj := deliver_jobs hk h2 hd
      exact ih s' fun y hy => by rw [hj]; exact h y (by simp [hy])
    | err _ => rfl
    | panic => rfl
    | hang => rfl

theorem hearsMore_append {heard : M → Bool} {es es' full full' : List (UiEvent M F D)} (h : HearsMore heard es full)
    (h' : HearsMore heard es' full') : HearsMore heard (es ++ es') (full ++ full') := by
  induction h with
  | nil => exact h'
  | own e _ ih => exact .own e ih
  | added k hm _ ih => exact .added k hm ih

theorem hearsMore_refl (heard : M → Bool) : ∀ es : List (UiEvent M F D), HearsMore heard es es
  | [] => .nil
  | e :: es => .own e (hearsMore_refl heard es)

theorem hearsMore_added {heard : M → Bool} : ∀ xs : List (Nat × M), (∀ x ∈ xs, heard x.2 = true) →
    HearsMore (F := F) (D := D) heard [] (xs.map fun x => .report x.1 x.2)
  | [], _ => .nil
  | x :: xs, h => .added _ (h x (by simp)) (hearsMore_added xs fun y hy => h y (by simp [hy]))

/-- What a page hears of an event of the window that none of its jobs has sent. -/
theorem hear_other {d : PageDef S M J F D} (hk : MidKeeps d) {heard : M → Bool} {ms : List M}
    (hms : ∀ m ∈ ms, d.midMsg m = true ∧ heard m = true) (s : UiSys S J) :
    ∃ full, HearsMore heard [] full ∧ runUi d full s = some (s.hear d ms) ∧ (s.jobs = [] → full = []) := by
  let xs : List (Nat × M) := s.jobs.flatMap fun _ => ms.map fun m => (0, m)
  have hx : ∀ x ∈ xs, x.1 < s.jobs.length ∧ d.midMsg x.2 = true ∧ heard x.2 = true := by
    intro x hx
    obtain ⟨j, hj, hm⟩ := List.mem_flatMap.1 hx
    obtain ⟨m, hm', rfl⟩ := List.mem_map.1 hm
    exact ⟨List.length_pos_of_mem hj, hms m hm'⟩
  refine ⟨xs.map fun x => .report x.1 x.2, hearsMore_added xs fun x h => (hx x h).2.2, ?_, ?_⟩
  · rw [deliverAll_run hk xs s fun x h => ⟨(hx x h).1, (hx x h).2.1⟩]
    unfold UiSys.hear
    congr 2
    simp only [xs, List.map_flatMap, List.map_map]
    congr 1
    funext _
    show List.map (fun m => m) ms = ms
    simp
  · intro h
    simp [xs, h]

/-- What a page hears of an event of the window that one of its jobs has sent. -/
theorem hear_own {d : PageDef S M J F D} (hk : MidKeeps d) {heard : M → Bool} {ms : List M}
    (hms : ∀ m ∈ ms, d.midMsg m = true ∧ heard m = true) (s : UiSys S J) {k : Nat} (hkl : k < s.jobs.length) :
    ∃ full, HearsMore heard (ms.map (.report k)) full ∧ runUi d full s = some (s.hear d ms) ∧
      (s.jobs.length = 1 → full = ms.map (.report k)) := by
  obtain ⟨j0, js, hjs⟩ : ∃ j0 js, s.jobs = j0 :: js := by
    cases h : s.jobs with
    | nil => rw [h] at hkl; simp at hkl
    | cons a b => exact ⟨a, b, rfl⟩
  let ys : List (Nat × M) := js.flatMap fun _ => ms.map fun m => (0, m)
  let xs : List (Nat × M) := ms.map (fun m => (k, m)) ++ ys
  have hy : ∀ x ∈ ys, x.1 < s.jobs.length ∧ d.midMsg x.2 = true ∧ heard x.2 = true := by
    intro x hx
    obtain ⟨j, hj, hm⟩ := List.mem_flatMap.1 hx
    obtain ⟨m, hm', rfl⟩ := List.mem_map.1 hm
    exact ⟨by omega, hms m hm'⟩
  have hx : ∀ x ∈ xs, x.1 < s.jobs.length ∧ d.midMsg x.2 = true := by
    intro x hx
    rcases List.mem_append.1 hx with hx | hx
    · obtain ⟨m, hm, rfl⟩ := List.mem_map.1 hx
      exact ⟨hkl, (hms m hm).1⟩
    · exact ⟨(hy x hx).1, (hy x hx).2.1⟩
  refine ⟨xs.map fun x => .report x.1 x.2, ?_, ?_, ?_⟩
  · have h1 := hearsMore_append (hearsMore_refl heard (ms.map (UiEvent.report (F := F) (D := D) k)))
      (hearsMore_added ys fun x h => (hy x h).2.2)
    simpa [xs, List.map_append, Function.comp_def] using h1
  · rw [deliverAll_run hk xs s hx]
    unfold UiSys.hear
    congr 2
    rw [hjs]
    simp only [xs, ys, List.map_append, List.map_flatMap, List.map_map, List.flatMap_cons, Function.comp_def, List.map_id']
  · intro h
    rw [hjs] at h
    have : js = [] := by
      cases js with
      | nil => rfl
      | cons _ _ => simp at h
    simp [xs, ys, this, Function.comp_def]

/-! ## One event -/

/-- What an event of the application is for a page: with no other listener, and in general. -/
structure Part (d : PageDef S M J F D) (heard : M → Bool) (own : List (UiEvent M F D)) (quiet : Prop) (s s' : UiSys S J) :
    Prop where
  more : ∃ full, HearsMore heard own full ∧ runUi d full s = some (.ok s')
  alone : quiet → runUi d own s = some (.ok s')

theorem part_same (d : PageDef S M J F D) (heard : M → Bool) (quiet : Prop) (s : UiSys S J) : Part d heard [] quiet s s :=
  ⟨⟨[], .nil, rfl⟩, fun _ => rfl⟩

theorem runUi_one {d : PageDef S M J F D} {e : UiEvent M F D} {s : UiSys S J} {r : Res (UiSys S J)}
    (h : s.step d e = some r) : runUi d [e] s = some r := by
  simp only [runUi, h]
  cases r <;> rfl

theorem part_event {d : PageDef S M J F D} (heard : M → Bool) (quiet : Prop) {s s' : UiSys S J} {e : UiEvent M F D}
    (h : s.step d e = some (.ok s')) : Part d heard [e] quiet s s' :=
  ⟨⟨[e], .own e .nil, runUi_one h⟩, fun _ => runUi_one h⟩

theorem part_other {d : PageDef S M J F D} (hk : MidKeeps d) {heard : M → Bool} {ms : List M}
    (hms : ∀ m ∈ ms, d.midMsg m = true ∧ heard m = true) {quiet : Prop} {s s' : UiSys S J} (hq : quiet → s.jobs = [])
    (h : s.hear d ms = .ok s') : Part d heard [] quiet s s' := by
  obtain ⟨full, h1, h2, h3⟩ := hear_other hk hms s
  rw [h] at h2
  exact ⟨⟨full, h1, h2⟩, fun hx => by rw [← h3 (hq hx)]; exact h2⟩

theorem part_own {d : PageDef S M J F D} (hk : MidKeeps d) {heard : M → Bool} {ms : List M}
    (hms : ∀ m ∈ ms, d.midMsg m = true ∧ heard m = true) {quiet : Prop} {s s' : UiSys S J} {k : Nat}
    (hkl : k < s.jobs.length) (hq : quiet → s.jobs.length = 1) (h : s.hear d ms = .ok s') :
    Part d heard (ms.map (.report k)) quiet s s' := by
  obtain ⟨full, h1, h2, h3⟩ := hear_own hk hms s hkl
  rw [h] at h2
  exact ⟨⟨full, h1, h2⟩, fun hx => by rw [← h3 (hq hx)]; exact h2⟩

theorem part_trans {d : PageDef S M J F D} {heard : M → Bool} {q1 q2 : Prop} {own own' : List (UiEvent M F D)}
    {s s1 s2 : UiSys S J} (h1 : Part d heard own q1 s s1) (h2 : Part d heard own' q2 s1 s2) :
    Part d heard (own ++ own') (q1 ∧ q2) s s2 := by
  obtain ⟨⟨f1, a1, b1⟩, c1⟩ := h1
  obtain ⟨⟨f2, a2, b2⟩, c2⟩ := h2
  refine ⟨⟨f1 ++ f2, hearsMore_append a1 a2, by rw [runUi_append, b1]; exact b2⟩, fun hx => ?_⟩
  rw [runUi_append, c1 hx.1]
  exact c2 hx.2

/-- The condition of `ReportsAlone` for one event. -/
def AloneAt (a : App F D) (e : AppEvent F D) : Prop :=
  (∀ t k p, e = .progress t k p → a.jobsOf .pack + a.jobsOf .unpack + a.jobsOf .compress = 1) ∧
    ∀ k p, e = .sectors k p → a.jobsOf .compress = 1

theorem map_bind_ok {α β : Type} {o : Option (Res α)} {f : α → β} {b : β}
    (h : (o.map fun r => r.bind fun s => .ok (f s)) = some (.ok b)) : ∃ s, o = some (.ok s) ∧ b = f s := by
  cases o with
  | none => cases h
  | some r =>
    cases r with
    | ok s => cases h; exact ⟨s, rfl, rfl⟩
    | err _ => cases h
    | panic => cases h
    | hang => cases h

theorem app_step {desktop : Bool} {fname : F → Str} {dname : D → Str} {a a' : App F D} {e : AppEvent F D}
    (h : a.step desktop fname dname e = some (.ok a')) :
    Part (packDef fname dname) packViaWindow (ownPack [e]) (AloneAt a e) a.pack a'.pack ∧
    Part unpackDef unpackViaWindow (ownUnpack [e]) (AloneAt a e) a.unpack a'.unpack ∧
    Part compDef compViaWindow (ownComp [e]) (AloneAt a e) a.comp a'.comp := by
  cases e with
  | select t =>
    simp only [App.step] at h
    split at h
    · cases h; exact ⟨part_same _ _ _ _, part_same _ _ _ _, part_same _ _ _ _⟩
    · cases h
  | pack e =>
    simp only [App.step] at h
    split at h
    · obtain ⟨s, h1, rfl⟩ := map_bind_ok (f := fun s => { a with pack := s }) h
      exact ⟨part_event _ _ h1, part_same _ _ _ _, part_same _ _ _ _⟩
    · cases h
  | unpack e =>
    simp only [App.step] at h
    split at h
    · obtain ⟨s, h1, rfl⟩ := map_bind_ok (f := fun s => { a with unpack := s }) h
      exact ⟨part_same _ _ _ _, part_event _ _ h1, part_same _ _ _ _⟩
    · cases h
  | comp e =>
    simp only [App.step] at h
    split at h
    · obtain ⟨s, h1, rfl⟩ := map_bind_ok (f := fun s => { a with comp := s }) h
      exact ⟨part_same _ _ _ _, part_same _ _ _ _, part_event _ _ h1⟩
    · cases h
  | progress t k p =>
    simp only [App.step] at h
    split at h
    · next hk =>
      simp only [Option.some.injEq] at h
      obtain ⟨s1, h1, h⟩ := Res.bind_eq_ok.1 h
      obtain ⟨s2, h2, h⟩ := Res.bind_eq_ok.1 h
      obtain ⟨s3, h3, h⟩ := Res.bind_eq_ok.1 h
      cases h
      have m1 : ∀ m ∈ [PackMsg.updateProgress (F := F) (D := D) p], (packDef fname dname).midMsg m = true ∧
          packViaWindow m = true := by
        intro m hm; simp only [List.mem_singleton] at hm; subst hm; exact ⟨rfl, rfl⟩
      have m2 : ∀ m ∈ [UnpackMsg.updateProgress (F := F) (D := D) p], unpackDef.midMsg m = true ∧
          unpackViaWindow m = true := by
        intro m hm; simp only [List.mem_singleton] at hm; subst hm; exact ⟨rfl, rfl⟩
      have m3 : ∀ m ∈ [CompMsg.updateProgress (F := F) (D := D) p], compDef.midMsg m = true ∧
          compViaWindow m = true := by
        intro m hm; simp only [List.mem_singleton] at hm; subst hm; exact ⟨rfl, rfl⟩
      have hsum : AloneAt a (.progress t k p) → a.pack.jobs.length + a.unpack.jobs.length + a.comp.jobs.length = 1 :=
        fun hx => hx.1 t k p rfl
      cases t with
      | pack =>
        have hk' : k < a.pack.jobs.length := hk.2
        exact ⟨part_own (pack_midKeeps _ _) m1 hk' (fun hx => by have := hsum hx; omega) h1,
          part_other unpack_midKeeps m2 (fun hx => List.eq_nil_of_length_eq_zero (by have := hsum hx; omega)) h2,
          part_other comp_midKeeps m3 (fun hx => List.eq_nil_of_length_eq_zero (by have := hsum hx; omega)) h3⟩
      | unpack =>
        have hk' : k < a.unpack.jobs.length := hk.2
        exact ⟨part_other (pack_midKeeps _ _) m1 (fun hx => List.eq_nil_of_length_eq_zero (by have := hsum hx; omega)) h1,
          part_own unpack_midKeeps m2 hk' (fun hx => by have := hsum hx; omega) h2,
          part_other comp_midKeeps m3 (fun hx => List.eq_nil_of_length_eq_zero (by have := hsum hx; omega)) h3⟩
      | compress =>
        have hk' : k < a.comp.jobs.length := hk.2
        exact ⟨part_other (pack_midKeeps _ _) m1 (fun hx => List.eq_nil_of_length_eq_zero (by have := hsum hx; omega)) h1,
          part_other unpack_midKeeps m2 (fun hx => List.eq_nil_of_length_eq_zero (by have := hsum hx; omega)) h2,
          part_own comp_midKeeps m3 hk' (fun hx => by have := hsum hx; omega) h3⟩
    · cases h
  | sectors k p =>
    simp only [App.step] at h
    split at h
    · next hk =>
      simp only [Option.some.injEq] at h
      obtain ⟨s3, h3, h⟩ := Res.bind_eq_ok.1 h
      cases h
      have m3 : ∀ m ∈ [CompMsg.changeState (F := F) (D := D) .compressing, .updateCompression p], compDef.midMsg m = true ∧
          compViaWindow m = true := by
        intro m hm
        simp only [List.mem_cons, List.not_mem_nil, or_false] at hm
        rcases hm with rfl | rfl <;> exact ⟨rfl, rfl⟩
      exact ⟨part_same _ _ _ _, part_same _ _ _ _,
        part_own comp_midKeeps m3 hk.2 (fun hx => hx.2 k p rfl) h3⟩
    · cases h

/-! ## Crashes -/

/-- A page crashes in what happens on it. -/
def Crash (d : PageDef S M J F D) (heard : M → Bool) (own : List (UiEvent M F D)) (s : UiSys S J) : Prop :=
  ∃ full, HearsMore heard own full ∧ runUi d full s = some .panic

theorem map_bind_panic {α β : Type} {o : Option (Res α)} {f : α → β}
    (h : (o.map fun r => r.bind fun s => .ok (f s)) = some .panic) : o = some .panic := by
  cases o with
  | none => cases h
  | some r =>
    cases r with
    | ok s => cases h
    | err _ => cases h
    | panic => rfl
    | hang => cases h

theorem bind_panic {α β : Type} {r : Res α} {f : α → Res β} (h : r.bind f = .panic) :
    r = .panic ∨ ∃ a, r = .ok a ∧ f a = .panic := by
  cases r with
  | ok a => exact .inr ⟨a, rfl, h⟩
  | err _ => cases h
  | panic => exact .inl rfl
  | hang => cases h

theorem crash_event {d : PageDef S M J F D} (heard : M → Bool) {s : UiSys S J} {e : UiEvent M F D}
    (h : s.step d e = some .panic) : Crash d heard [e] s := ⟨[e], .own e .nil, runUi_one h⟩

theorem crash_hear {d : PageDef S M J F D} (hk : MidKeeps d) {heard : M → Bool} {ms : List M}
    (hms : ∀ m ∈ ms, d.midMsg m = true ∧ heard m = true) {s : UiSys S J} (h : s.hear d ms = .panic) :
    Crash d heard [] s ∧ ∀ k, k < s.jobs.length → Crash d heard (ms.map (.report k)) s := by
  refine ⟨?_, fun k hkl => ?_⟩
  · obtain ⟨full, h1, h2, _⟩ := hear_other hk hms s
    exact ⟨full, h1, by rw [h2, h]⟩
  · obtain ⟨full, h1, h2, _⟩ := hear_own hk hms s hkl
    exact ⟨full, h1, by rw [h2, h]⟩

theorem app_step_crash {desktop : Bool} {fname : F → Str} {dname : D → Str} {a : App F D} {e : AppEvent F D}
    (h : a.step desktop fname dname e = some .panic) :
    Crash (packDef fname dname) packViaWindow (ownPack [e]) a.pack ∨
    Crash unpackDef unpackViaWindow (ownUnpack [e]) a.unpack ∨ Crash compDef compViaWindow (ownComp [e]) a.comp := by
  cases e with
  | select t =>
    simp only [App.step] at h
    split at h <;> cases h
  | pack e =>
    simp only [App.step] at h
    split at h
    · exact .inl (crash_event _ (map_bind_panic (f := fun s => { a with pack := s }) h))
    · cases h
  | unpack e =>
    simp only [App.step] at h
    split at h
    · exact .inr (.inl (crash_event _ (map_bind_panic (f := fun s => { a with unpack := s }) h)))
    · cases h
  | comp e =>
    simp only [App.step] at h
    split at h
    · exact .inr (.inr (crash_event _ (map_bind_panic (f := fun s => { a with comp := s }) h)))
    · cases h
  | progress t k p =>
    simp only [App.step] at h
    split at h
    · next hk =>
      simp only [Option.some.injEq] at h
      rcases bind_panic h with h | ⟨s1, _, h⟩
      · have := crash_hear (pack_midKeeps fname dname) (heard := packViaWindow) (by
          intro m hm; simp only [List.mem_singleton] at hm; subst hm; exact ⟨rfl, rfl⟩) h
        cases t with
        | pack => exact .inl (this.2 k hk.2)
        | unpack => exact .inl this.1
        | compress => exact .inl this.1
      · rcases bind_panic h with h | ⟨s2, _, h⟩
        · have := crash_hear unpack_midKeeps (heard := unpackViaWindow) (by
            intro m hm; simp only [List.mem_singleton] at hm; subst hm; exact ⟨rfl, rfl⟩) h
          cases t with
          | pack => exact .inr (.inl this.1)
          | unpack => exact .inr (.inl (this.2 k hk.2))
          | compress => exact .inr (.inl this.1)
        · rcases bind_panic h with h | ⟨s3, _, h⟩
          · have := crash_hear comp_midKeeps (heard := compViaWindow) (by
              intro m hm; simp only [List.mem_singleton] at hm; subst hm; exact ⟨rfl, rfl⟩) h
            cases t with
            | pack => exact .inr (.inr this.1)
            | unpack => exact .inr (.inr this.1)
            | compress => exact .inr (.inr (this.2 k hk.2))
          · cases h
    · cases h
  | sectors k p =>
    simp only [App.step] at h
    split at h
    · next hk =>
      simp only [Option.some.injEq] at h
      rcases bind_panic h with h | ⟨s3, _, h⟩
      · exact .inr (.inr ((crash_hear comp_midKeeps (heard := compViaWindow) (by
          intro m hm
          simp only [List.mem_cons, List.not_mem_nil, or_false] at hm
          rcases hm with rfl | rfl <;> exact ⟨rfl, rfl⟩) h).2 k hk.2))
      · cases h
    · cases h

/-! ## Histories -/

theorem own_cons (e : AppEvent F D) (es : List (AppEvent F D)) : ownPack (e :: es) = ownPack [e] ++ ownPack es ∧
    ownUnpack (e :: es) = ownUnpack [e] ++ ownUnpack es ∧ ownComp (e :: es) = ownComp [e] ++ ownComp es := by
  refine ⟨?_, ?_, ?_⟩ <;> simp [ownPack, ownUnpack, ownComp]

/-- The condition of `ReportsAlone` along a history. -/
def AloneFrom (desktop : Bool) (fname : F → Str) (dname : D → Str) (a : App F D) (es : List (AppEvent F D)) : Prop :=
  ∀ before e after a', es = before ++ e :: after → runApp desktop fname dname before a = some (.ok a') → AloneAt a' e

theorem run_parts {desktop : Bool} {fname : F → Str} {dname : D → Str} : ∀ (es : List (AppEvent F D)) (a a' : App F D),
    runApp desktop fname dname es a = some (.ok a') →
    Part (packDef fname dname) packViaWindow (ownPack es) (AloneFrom desktop fname dname a es) a.pack a'.pack ∧
    Part unpackDef unpackViaWindow (ownUnpack es) (AloneFrom desktop fname dname a es) a.unpack a'.unpack ∧
    Part compDef compViaWindow (ownComp es) (AloneFrom desktop fname dname a es) a.comp a'.comp := by
  intro es
  induction es with
  | nil =>
    intro a a' h
    cases h
    exact ⟨part_same _ _ _ _, part_same _ _ _ _, part_same _ _ _ _⟩
  | cons e es ih =>
    intro a a' h
    simp only [runApp] at h
    cases hs : a.step desktop fname dname e with
    | none => rw [hs] at h; cases h
    | some r =>
      rw [hs] at h
      cases r with
      | ok a1 =>
        obtain ⟨p1, p2, p3⟩ := app_step hs
        obtain ⟨q1, q2, q3⟩ := ih a1 a' h
        have hq : AloneFrom desktop fname dname a (e :: es) → AloneAt a e ∧ AloneFrom desktop fname dname a1 es := by
          intro hx
          refine ⟨hx [] e es a rfl rfl, fun before e' after a2 he hr => hx (e :: before) e' after a2 (by rw [he]; rfl) ?_⟩
          simp only [runApp, hs]
          exact hr
        obtain ⟨o1, o2, o3⟩ := own_cons e es
        rw [o1, o2, o3]
        have weaken : ∀ {S M J : Type} {d : PageDef S M J F D} {heard : M → Bool} {own : List (UiEvent M F D)}
            {s s' : UiSys S J}, Part d heard own (AloneAt a e ∧ AloneFrom desktop fname dname a1 es) s s' →
            Part d heard own (AloneFrom desktop fname dname a (e :: es)) s s' :=
          fun hp => ⟨hp.more, fun hx => hp.alone (hq hx)⟩
        exact ⟨weaken (part_trans p1 q1), weaken (part_trans p2 q2), weaken (part_trans p3 q3)⟩
      | err _ => cases h
      | panic => cases h
      | hang => cases h

theorem crash_after {d : PageDef S M J F D} {heard : M → Bool} {own own' : List (UiEvent M F D)} {q : Prop}
    {s s1 : UiSys S J} (h1 : Part d heard own q s s1) (h2 : Crash d heard own' s1) : Crash d heard (own ++ own') s := by
  obtain ⟨⟨f1, a1, b1⟩, _⟩ := h1
  obtain ⟨f2, a2, b2⟩ := h2
  exact ⟨f1 ++ f2, hearsMore_append a1 a2, by rw [runUi_append, b1]; exact b2⟩

theorem crash_before {d : PageDef S M J F D} {heard : M → Bool} {own : List (UiEvent M F D)} {s : UiSys S J}
    (h : Crash d heard own s) (own' : List (UiEvent M F D)) : Crash d heard (own ++ own') s := by
  obtain ⟨f, a, b⟩ := h
  exact ⟨f ++ own', hearsMore_append a (hearsMore_refl _ _), by rw [runUi_append, b]⟩

theorem run_crash {desktop : Bool} {fname : F → Str} {dname : D → Str} : ∀ (es : List (AppEvent F D)) (a : App F D),
    runApp desktop fname dname es a = some .panic →
    Crash (packDef fname dname) packViaWindow (ownPack es) a.pack ∨
    Crash unpackDef unpackViaWindow (ownUnpack es) a.unpack ∨ Crash compDef compViaWindow (ownComp es) a.comp := by
  intro es
  induction es with
  | nil => intro a h; cases h
  | cons e es ih =>
    intro a h
    obtain ⟨o1, o2, o3⟩ := own_cons e es
    rw [o1, o2, o3]
    simp only [runApp] at h
    cases hs : a.step desktop fname dname e with
    | none => rw [hs] at h; cases h
    | some r =>
      rw [hs] at h
      cases r with
      | ok a1 =>
        obtain ⟨p1, p2, p3⟩ := app_step hs
        rcases ih a1 h with hc | hc | hc
        · exact .inl (crash_after p1 hc)
        · exact .inr (.inl (crash_after p2 hc))
        · exact .inr (.inr (crash_after p3 hc))
      | err _ => cases h
      | panic =>
        rcases app_step_crash hs with hc | hc | hc
        · exact .inl (crash_before hc _)
        · exact .inr (.inl (crash_before hc _))
        · exact .inr (.inr (crash_before hc _))
      | hang => cases h

theorem runApp_append (desktop : Bool) (fname : F → Str) (dname : D → Str) (es fs : List (AppEvent F D)) (a : App F D) :
    runApp desktop fname dname (es ++ fs) a = match runApp desktop fname dname es a with
      | some (.ok a') => runApp desktop fname dname fs a'
      | other => other := by
  induction es generalizing a with
  | nil => rfl
  | cons e es ih =>
    simp only [List.cons_append, runApp]
    cases h : a.step desktop fname dname e with
    | none => rfl
    | some r => cases r with
      | ok s' => exact ih s'
      | err _ => rfl
      | panic => rfl
      | hang => rfl

end Xdvdfs
