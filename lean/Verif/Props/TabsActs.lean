import Verif.Props.Tabs
import Verif.Spec.TabsActs

/-!
# C148: what can happen on the pages of the application, and dialogs
-/

namespace Xdvdfs.Props

open Spec

variable {F D : Type} {fname : F → Str} {dname : D → Str}

namespace TabsActs

theorem noDialog_iff (a : App F D) : a.noDialog = true ↔ NoDialogOpen a := by
  unfold App.noDialog NoDialogOpen
  simp [Option.isNone_iff_eq_none, and_assoc]

theorem allows_iff {desktop : Bool} {a : App F D} {t : AppTab} {via : M → Bool} {heard : M → Prop}
    (hv : ∀ m, via m = true ↔ heard m) (e : UiEvent M F D) :
    a.allows desktop t via e = true ↔ Unhindered desktop a t heard e := by
  unfold Unhindered
  cases e with
  | click b => simp [App.allows, noDialog_iff]
  | report k m =>
    simp only [App.allows, reduceCtorEq, false_implies, implies_true, true_and, UiEvent.report.injEq, and_imp]
    constructor
    · rintro h _ _ rfl rfl hd hm
      rw [hd, (hv _).2 hm] at h
      cases h
    · intro h
      cases desktop with
      | false => rfl
      | true =>
        cases hm : via m with
        | false => rfl
        | true => exact absurd ((hv m).1 hm) (h k m rfl rfl rfl)
  | _ => simp [App.allows]

theorem runApp_last (desktop : Bool) {es : List (AppEvent F D)} {a : App F D} (h : AppHappens desktop fname dname es (.ok a))
    (e : AppEvent F D) (r : Res (App F D)) :
    AppHappens desktop fname dname (es ++ [e]) r ↔ a.step desktop fname dname e = some r := by
  unfold AppHappens at h ⊢
  rw [runApp_append, h]
  simp only [runApp]
  split
  · next h1 => rw [h1]
  · rfl

theorem runUi_last {d : PageDef S M J F D} {es : List (UiEvent M F D)} {s : UiSys S J} (h : Happens d es (.ok s))
    (e : UiEvent M F D) (r : Res (UiSys S J)) : Happens d (es ++ [e]) r ↔ s.step d e = some r := by
  unfold Happens at h ⊢
  rw [runUi_append, h]
  simp only [runUi]
  split
  · next h1 => rw [h1]
  · rfl

theorem bind_ok {A B : Type} {g : A → B} {x : Option (Res A)} {b : B} :
    (x.map fun r => r.bind fun s => .ok (g s)) = some (.ok b) ↔ ∃ s, x = some (.ok s) ∧ b = g s := by
  cases x with
  | none => simp
  | some r =>
    cases r with
    | ok s =>
      constructor
      · intro h
        have h : some (Res.ok (g s)) = some (.ok b) := h
        simp only [Option.some.injEq, Res.ok.injEq] at h
        exact ⟨s, rfl, h.symm⟩
      · rintro ⟨s', h, rfl⟩
        simp only [Option.some.injEq, Res.ok.injEq] at h
        subst h; rfl
    | _ =>
      constructor
      · intro h
        simp only [Option.map_some, Option.some.injEq] at h
        cases h
      · rintro ⟨s', h, _⟩; simp at h

theorem deliver_dialog {d : PageDef S M J F D} {s s' : UiSys S J} {m : M} (h : s.deliver d m = .ok s') :
    s'.dialog = s.dialog := by
  unfold UiSys.deliver at h
  obtain ⟨⟨p, j⟩, _, h⟩ := Res.bind_eq_ok.1 h
  obtain ⟨_, _, h⟩ := Res.bind_eq_ok.1 h
  cases h; rfl

theorem deliverAll_dialog {d : PageDef S M J F D} (ms : List M) : ∀ {s s' : UiSys S J},
    UiSys.deliverAll d ms s = .ok s' → s'.dialog = s.dialog := by
  induction ms with
  | nil => intro s s' h; cases h; rfl
  | cons m ms ih =>
    intro s s' h
    obtain ⟨s1, h1, h2⟩ := Res.bind_eq_ok.1 h
    rw [ih h2, deliver_dialog h1]

theorem step_dialog {d : PageDef S M J F D} {s s' : UiSys S J} {e : UiEvent M F D} (h : s.step d e = some (.ok s'))
    (hc : ∀ b, e ≠ .click b) (hs : s.dialog = none) : s'.dialog = none := by
  cases e with
  | click b => exact absurd rfl (hc b)
  | choose p => simp [UiSys.step, hs] at h
  | cancel => simp [UiSys.step, hs] at h
  | report k m =>
    simp only [UiSys.step] at h
    split at h
    · rw [deliver_dialog (Option.some.inj h), hs]
    · cases h
  | ends k m =>
    simp only [UiSys.step] at h
    split at h
    · rw [deliver_dialog (Option.some.inj h)]; exact hs
    · cases h
  | dies k =>
    simp only [UiSys.step] at h
    split at h
    · cases h; exact hs
    · cases h

/-- Dialogs are open only on the page that is shown. -/
def OnShown (a : App F D) : Prop :=
  (a.pack.dialog ≠ none → a.shown = .pack) ∧ (a.unpack.dialog ≠ none → a.shown = .unpack) ∧
    (a.comp.dialog ≠ none → a.shown = .compress)

theorem step_onShown {desktop : Bool} {a a' : App F D} (ha : OnShown a) {e : AppEvent F D}
    (h : a.step desktop fname dname e = some (.ok a')) : OnShown a' := by
  have page : ∀ {S M J : Type} {d : PageDef S M J F D} {s s' : UiSys S J} {ev : UiEvent M F D} {t : AppTab} {via : M → Bool},
      a.allows desktop t via ev = true → s.step d ev = some (.ok s') → (s.dialog ≠ none → a.shown = t) →
      s'.dialog ≠ none → a.shown = t := by
    intro S M J d s s' ev t via hal hst hs hs'
    by_cases hc : ∃ b, ev = .click b
    · obtain ⟨b, rfl⟩ := hc
      simp only [App.allows, Bool.and_eq_true, decide_eq_true_eq] at hal
      exact hal.1
    · exact hs (fun hn => hs' (step_dialog hst (fun b hb => hc ⟨b, hb⟩) hn))
  obtain ⟨h1, h2, h3⟩ := ha
  cases e with
  | select t =>
    simp only [App.step] at h
    split at h
    · next hn =>
      cases h
      obtain ⟨n1, n2, n3⟩ := (noDialog_iff a).1 hn
      exact ⟨fun hne => absurd n1 hne, fun hne => absurd n2 hne, fun hne => absurd n3 hne⟩
    · cases h
  | pack e =>
    simp only [App.step] at h
    split at h
    · next hal =>
      obtain ⟨s, hs, rfl⟩ := bind_ok.1 h
      exact ⟨page hal hs h1, h2, h3⟩
    · cases h
  | unpack e =>
    simp only [App.step] at h
    split at h
    · next hal =>
      obtain ⟨s, hs, rfl⟩ := bind_ok.1 h
      exact ⟨h1, page hal hs h2, h3⟩
    · cases h
  | comp e =>
    simp only [App.step] at h
    split at h
    · next hal =>
      obtain ⟨s, hs, rfl⟩ := bind_ok.1 h
      exact ⟨h1, h2, page hal hs h3⟩
    · cases h
  | progress t k p =>
    simp only [App.step] at h
    split at h
    · obtain ⟨s1, k1, h⟩ := Res.bind_eq_ok.1 (Option.some.inj h)
      obtain ⟨s2, k2, h⟩ := Res.bind_eq_ok.1 h
      obtain ⟨s3, k3, h⟩ := Res.bind_eq_ok.1 h
      cases h
      exact ⟨by rw [show s1.dialog = _ from deliverAll_dialog _ k1]; exact h1,
        by rw [show s2.dialog = _ from deliverAll_dialog _ k2]; exact h2,
        by rw [show s3.dialog = _ from deliverAll_dialog _ k3]; exact h3⟩
    · cases h
  | sectors k p =>
    simp only [App.step] at h
    split at h
    · obtain ⟨s3, k3, h⟩ := Res.bind_eq_ok.1 (Option.some.inj h)
      cases h
      exact ⟨h1, h2, by rw [show s3.dialog = _ from deliverAll_dialog _ k3]; exact h3⟩
    · cases h

theorem run_onShown {desktop : Bool} (es : List (AppEvent F D)) : ∀ {a a' : App F D}, OnShown a →
    runApp desktop fname dname es a = some (.ok a') → OnShown a' := by
  induction es with
  | nil => intro a a' ha h; cases h; exact ha
  | cons e es ih =>
    intro a a' ha h
    simp only [runApp] at h
    split at h
    · next a1 h1 => exact ih (step_onShown ha h1) h
    · next hne => exact absurd h (hne _)

end TabsActs

/-- **C148, dialogs.**  In every history a dialog is open only on the page whose tab is selected; so never more than one
dialog is open, whatever the jobs of the pages do. -/
theorem C148_one_dialog {desktop : Bool} {es : List (AppEvent F D)} {a : App F D}
    (h : AppHappens desktop fname dname es (.ok a)) :
    (a.pack.dialog ≠ none → a.shown = .pack ∧ a.unpack.dialog = none ∧ a.comp.dialog = none) ∧
    (a.unpack.dialog ≠ none → a.shown = .unpack ∧ a.pack.dialog = none ∧ a.comp.dialog = none) ∧
    (a.comp.dialog ≠ none → a.shown = .compress ∧ a.pack.dialog = none ∧ a.unpack.dialog = none) := by
  obtain ⟨h1, h2, h3⟩ := TabsActs.run_onShown es (a := App.init fname dname)
    ⟨fun h => absurd rfl h, fun h => absurd rfl h, fun h => absurd rfl h⟩ h
  have no : ∀ {t t' : AppTab} {x : Option Button}, a.shown = t → t ≠ t' → (x ≠ none → a.shown = t') → x = none := by
    intro t t' x e hne hx
    exact Classical.byContradiction fun hn => hne (e.symm.trans (hx hn))
  exact ⟨fun hd => ⟨h1 hd, no (h1 hd) (by decide) h2, no (h1 hd) (by decide) h3⟩,
    fun hd => ⟨h2 hd, no (h2 hd) (by decide) h1, no (h2 hd) (by decide) h3⟩,
    fun hd => ⟨h3 hd, no (h3 hd) (by decide) h1, no (h3 hd) (by decide) h2⟩⟩

/-- **C148, what can happen.**  At any time, something can happen on a page of the application if and only if it could
happen on the page alone, and the application does not stand in its way: buttons are clicked on the page that is shown,
while no dialog is open; in the desktop version, progress is reported by the events of the window only.  It then does to
its page what it would do there alone, and nothing to the rest of the application. -/
theorem C148_acts {desktop : Bool} {es : List (AppEvent F D)} {a : App F D} (h : AppHappens desktop fname dname es (.ok a)) :
    (∀ p, Happens (packDef fname dname) p (.ok a.pack) → ∀ e a',
      AppHappens desktop fname dname (es ++ [.pack e]) (.ok a') ↔
        Unhindered desktop a .pack (fun m => ∃ x, m = .updateProgress x) e ∧
        Happens (packDef fname dname) (p ++ [e]) (.ok a'.pack) ∧ a' = { a with pack := a'.pack }) ∧
    (∀ u, Happens unpackDef u (.ok a.unpack) → ∀ e a',
      AppHappens desktop fname dname (es ++ [.unpack e]) (.ok a') ↔
        Unhindered desktop a .unpack (fun m => ∃ x, m = .updateProgress x) e ∧
        Happens unpackDef (u ++ [e]) (.ok a'.unpack) ∧ a' = { a with unpack := a'.unpack }) ∧
    ∀ c, Happens compDef c (.ok a.comp) → ∀ e a',
      AppHappens desktop fname dname (es ++ [.comp e]) (.ok a') ↔
        Unhindered desktop a .compress
          (fun m => (∃ x, m = .updateProgress x) ∨ (∃ x, m = .updateCompression x) ∨ m = .changeState .compressing) e ∧
        Happens compDef (c ++ [e]) (.ok a'.comp) ∧ a' = { a with comp := a'.comp } := by
  refine ⟨fun p hp e a' => ?_, fun u hu e a' => ?_, fun c hc e a' => ?_⟩
  · rw [TabsActs.runApp_last desktop h, TabsActs.runUi_last hp,
      ← TabsActs.allows_iff (via := packViaWindow) (by intro m; cases m <;> simp [packViaWindow])]
    simp only [App.step]
    split
    · next hal =>
      rw [TabsActs.bind_ok]
      constructor
      · rintro ⟨s, hs, rfl⟩; exact ⟨hal, hs, rfl⟩
      · rintro ⟨_, hs, he⟩; exact ⟨_, hs, he⟩
    · next hal => simp [hal]
  · rw [TabsActs.runApp_last desktop h, TabsActs.runUi_last hu,
      ← TabsActs.allows_iff (via := unpackViaWindow) (by intro m; cases m <;> simp [unpackViaWindow])]
    simp only [App.step]
    split
    · next hal =>
      rw [TabsActs.bind_ok]
      constructor
      · rintro ⟨s, hs, rfl⟩; exact ⟨hal, hs, rfl⟩
      · rintro ⟨_, hs, he⟩; exact ⟨_, hs, he⟩
    · next hal => simp [hal]
  · rw [TabsActs.runApp_last desktop h, TabsActs.runUi_last hc,
      ← TabsActs.allows_iff (via := compViaWindow) (by
        intro m
        cases m with
        | changeState s => cases s <;> simp [compViaWindow]
        | _ => simp [compViaWindow])]
    simp only [App.step]
    split
    · next hal =>
      rw [TabsActs.bind_ok]
      constructor
      · rintro ⟨s, hs, rfl⟩; exact ⟨hal, hs, rfl⟩
      · rintro ⟨_, hs, he⟩; exact ⟨_, hs, he⟩
    · next hal => simp [hal]

/-- After the tab "Unpack" was selected and the dialog for its image opened, the dialog is on the page that is shown;
and while the job of the page "Pack" runs, it can end there. -/
example (desktop : Bool) : ∃ a, AppHappens desktop deskFile deskDir (twoTabs.take 9) (.ok a) ∧ a.unpack.dialog ≠ none ∧
    a.jobsOf .pack = 1 :=
  ⟨_, by cases desktop <;> rfl, by decide, rfl⟩

end Xdvdfs.Props
