import Verif.Props.BrowserCompress
import Verif.Props.BrowserUnpack

/-!
# C111: what the pages of the browser version show at the end
-/

namespace Xdvdfs.Props

open Xdvdfs Xdvdfs.Spec

variable {fname : F → Str} {dname : D → Str} {text : Err → Str}

/-! ## C111: the page "Pack" -/

theorem web_pack_sent (hf : ∀ f, (fileName (fname f)).isSome) (hd : ∀ d, (fileName (dname d)).isSome)
    {es : List (UiEvent (PackMsg F D) F D)} {s : UiSys (PackPage F D) (Picked F D × F)}
    (h : Happens (packDef fname dname) es (.ok s)) (hj : s.jobs ≠ []) (r : WebRun) :
    ∃ s1, Happens (packDef fname dname) (es ++ (r.sent.map webPackMsg).map (.report 0)) (.ok s1) ∧ s1.jobs = s.jobs :=
  ⟨_, pack_reports hf hd (r.sent.map webPackMsg) es h hj (by
      intro m hm
      obtain ⟨x, _, rfl⟩ := List.mem_map.1 hm
      cases x <;> rfl), rfl⟩

theorem web_pack_page (hf : ∀ f, (fileName (fname f)).isSome) (hd : ∀ d, (fileName (dname d)).isSome)
    {es : List (UiEvent (PackMsg F D) F D)} {s : UiSys (PackPage F D) (Picked F D × F)}
    (h : Happens (packDef fname dname) es (.ok s)) (hj : s.jobs ≠ []) (r : WebRun) :
    ∃ s' v, Happens (packDef fname dname) (es ++ webPackEvents text r) (.ok s') ∧ Shows (packDef fname dname) s' v ∧
      (s'.page.stage = .finished ↔ r.reply = .ok ()) ∧ (∀ x, v.error = some x ↔ ∃ e, r.reply = .err e ∧ x = text e) ∧
      (s'.jobs = [] ↔ r.reply = .ok () ∨ ∃ e, r.reply = .err e) := by
  obtain ⟨s1, h1, h2⟩ := web_pack_sent hf hd h hj r
  have shown : ∀ (es') (s' : UiSys (PackPage F D) (Picked F D × F)), Happens (packDef fname dname) es' (.ok s') →
      ∃ v, Shows (packDef fname dname) s' v ∧ v.error = s'.page.stage.errorText ∧
        (s'.jobs ≠ [] → s'.page.stage.isPacking) := by
    intro es' s' h'
    obtain ⟨_, he, hi⟩ := pack_happens hf hd h'
    cases he
    obtain ⟨v, hv, _, _, _, _, _, _, _, _, hev⟩ := packView_ok hf hd s'.page hi.typed
    exact ⟨v, hv, hev, fun hj => (hi.busy hj).1⟩
  have quiet : webPackEvents (F := F) (D := D) text r = (r.sent.map webPackMsg).map (.report 0) → r.reply ≠ .ok () → (∀ e, r.reply ≠ .err e) →
      ∃ s' v, Happens (packDef fname dname) (es ++ webPackEvents text r) (.ok s') ∧ Shows (packDef fname dname) s' v ∧
      (s'.page.stage = .finished ↔ r.reply = .ok ()) ∧ (∀ x, v.error = some x ↔ ∃ e, r.reply = .err e ∧ x = text e) ∧
      (s'.jobs = [] ↔ r.reply = .ok () ∨ ∃ e, r.reply = .err e) := by
    intro hq h3 h4
    rw [hq]
    obtain ⟨v, k1, k2, k3⟩ := shown _ _ h1
    have k4 := k3 (by rw [h2]; exact hj)
    refine ⟨s1, v, h1, k1, ⟨fun hx => ?_, fun hx => absurd hx h3⟩, fun x => ⟨fun hx => ?_, ?_⟩, ⟨fun hx => ?_, ?_⟩⟩
    · rw [hx] at k4; cases k4
    · rw [k2] at hx
      cases hs : s1.page.stage <;> rw [hs] at k4 hx <;> first | (cases hx; done) | (cases k4; done)
    · rintro ⟨e, he, _⟩; exact absurd he (h4 e)
    · rw [h2] at hx; exact absurd hx hj
    · rintro (hx | ⟨e, he⟩)
      · exact absurd hx h3
      · exact absurd he (h4 e)
  have hj1 : s1.jobs ≠ [] := by rw [h2]; exact hj
  cases hr : r.reply with
  | ok u =>
    obtain ⟨s', k1, k2, k3⟩ := pack_ends hf hd h1 hj1 (st := .finished) (.inl rfl)
    obtain ⟨v, j1, j2, _⟩ := shown _ _ k1
    refine ⟨s', v, ?_, j1, ⟨fun _ => rfl, fun _ => by rw [k2]⟩, fun x => ⟨fun hx => ?_, nofun⟩, ⟨fun _ => .inl rfl, fun _ => k3⟩⟩
    · rw [List.append_assoc] at k1
      unfold webPackEvents
      rw [hr]
      exact k1
    · rw [j2, k2] at hx; cases hx
  | err e =>
    obtain ⟨s', k1, k2, k3⟩ := pack_ends hf hd h1 hj1 (st := .error (text e)) (.inr ⟨_, rfl⟩)
    obtain ⟨v, j1, j2, _⟩ := shown _ _ k1
    refine ⟨s', v, ?_, j1, ⟨fun hx => (by rw [k2] at hx; cases hx), nofun⟩, fun x => ⟨fun hx => ⟨e, rfl, ?_⟩, fun hx => ?_⟩,
      ⟨fun _ => .inr ⟨e, rfl⟩, fun _ => k3⟩⟩
    · rw [List.append_assoc] at k1
      unfold webPackEvents
      rw [hr]
      exact k1
    · rw [j2, k2] at hx; cases hx; rfl
    · obtain ⟨e', he, rfl⟩ := hx
      cases he
      rw [j2, k2]
      rfl
  | panic =>
    rw [← hr]
    exact quiet (by simp [webPackEvents, hr, webEndState]) (by rw [hr]; nofun) (by rw [hr]; nofun)
  | hang =>
    rw [← hr]
    exact quiet (by simp [webPackEvents, hr, webEndState]) (by rw [hr]; nofun) (by rw [hr]; nofun)

/-- **C111, packing.**  After a job of the page "Pack" in the browser, whatever it packed, whatever was refused and
whichever write failed: the page shows that it has finished exactly if the job succeeded, and it shows an error exactly if
the job ended with an error, and then the text of that error. -/
theorem C111_pack (hf : ∀ f, (fileName (fname f)).isSome) (hd : ∀ d, (fileName (dname d)).isSome)
    {es : List (UiEvent (PackMsg F D) F D)} {s : UiSys (PackPage F D) (Picked F D × F)}
    (h : Happens (packDef fname dname) es (.ok s)) (hj : s.jobs ≠ []) (b : Browser) (t : Tool) (fs : HostFs)
    (src : WebSource) (dest : HostPath) :
    ∃ s' v, Happens (packDef fname dname) (es ++ webPackEvents text (browserPack b t fs src dest)) (.ok s') ∧
      Shows (packDef fname dname) s' v ∧
      (s'.page.stage = .finished ↔ (browserPack b t fs src dest).reply = .ok ()) ∧
      (∀ x, v.error = some x ↔ ∃ e, (browserPack b t fs src dest).reply = .err e ∧ x = text e) :=
  (web_pack_page hf hd h hj _).imp fun _ hs => hs.imp fun _ hv => ⟨hv.1, hv.2.1, hv.2.2.1, hv.2.2.2.1⟩

/-- **C111 is false: a folder that cannot be listed.**  If the browser does not list the folder, the job dies, no
error is shown, no button can be clicked, and nothing can happen on the page any more. -/
theorem C111_unlisted_false (hf : ∀ f, (fileName (fname f)).isSome) (hd : ∀ d, (fileName (dname d)).isSome)
    {es : List (UiEvent (PackMsg F D) F D)} {s : UiSys (PackPage F D) (Picked F D × F)}
    (h : Happens (packDef fname dname) es (.ok s)) (hj : s.jobs ≠ []) {b : Browser} {t : Tool} {fs : HostFs}
    {p dest : HostPath} (ht : t.fuel ≠ 0) (hp : fs p = some .dir) (hl : b.noList p = true) :
    ∃ s' v, Happens (packDef fname dname)
        (es ++ webPackEvents text (browserPack b t fs (.folder p) dest) ++ [.dies 0]) (.ok s') ∧
      Shows (packDef fname dname) s' v ∧ v.error = none ∧ v.buttons = [] ∧
      ∀ e r, ¬ Happens (packDef fname dname)
        (es ++ webPackEvents text (browserPack b t fs (.folder p) dest) ++ [.dies 0] ++ [e]) r := by
  have hrun : browserPack b t fs (.folder p) dest = ⟨.panic, [], fs⟩ := by
    obtain ⟨n, hn⟩ := Nat.exists_eq_succ_of_ne_zero ht
    unfold browserPack webFsNew
    simp only [hn, populate, hp, hl, if_pos]
  rw [hrun]
  obtain ⟨_, he, hi⟩ := pack_happens hf hd h
  cases he
  obtain ⟨k1, i, f, k2, _⟩ := hi.busy hj
  have hev : webPackEvents (F := F) (D := D) text ⟨.panic, [], fs⟩ = [] := rfl
  rw [hev, List.append_nil]
  have hdlg : s.dialog = none := by
    cases hx : s.dialog with
    | none => rfl
    | some y => exact absurd (hi.idle (by simp [hx])) hj
  obtain ⟨v, hv, hb, _, _, _, _, _, _, _, hev⟩ := packView_ok hf hd s.page hi.typed
  have hdies : Happens (packDef fname dname) (es ++ [.dies 0]) (.ok { s with jobs := [] }) := by
    unfold Happens at h ⊢
    rw [runUi_append, h]
    simp [runUi, UiSys.step, k2]
  refine ⟨_, v, hdies, hv, ?_, hb k1, ?_⟩
  · rw [hev]
    cases hs : s.page.stage <;> rw [hs] at k1 <;> first | rfl | (cases k1; done)
  · intro e r hr
    unfold Happens at hr hdies
    rw [runUi_append, hdies] at hr
    have hview : (packDef fname dname).view s.page = .ok v := hv
    have hb := hb k1
    cases e <;> simp [runUi, UiSys.step, hdlg, hview, hb] at hr

/-! ## C111: the page "Unpack" -/

/-- **C111, unpacking.** -/
theorem C111_unpack {es : List (UiEvent (UnpackMsg F D) F D)} {s : UiSys (UnpackPage F D) (F × D)}
    (h : Happens unpackDef es (.ok s)) (hj : s.jobs ≠ []) (b : Browser) (t : Tool) (fs : HostFs) (src dest : HostPath) :
    ∃ s' v, Happens unpackDef (es ++ webUnpackEvents text (browserUnpack b t fs src dest)) (.ok s') ∧
      Shows unpackDef s' v ∧ (s'.page.stage = .finished ↔ (browserUnpack b t fs src dest).reply = .ok ()) ∧
      (∀ x, v.error = some x ↔ ∃ e, (browserUnpack b t fs src dest).reply = .err e ∧ x = text e) := by
  obtain ⟨log, hl, _⟩ := unpack_sent b t fs src dest
  have hi : UnpackInv (NoneDies es) s := by
    refine happens_ok unpackDef (fun e => NoneDies es → ∀ k, e ≠ .dies k) _ unpackInv_init ?_ es s ?_ h
    · intro s e s' hi hq hstep
      exact unpackInv_step s e s' hi hq hstep
    · intro e he hn k hk
      exact hn k (hk ▸ he)
  obtain ⟨k1, f, d, k2, _⟩ := hi.busy hj
  obtain ⟨s', j, h1, _, _, h4⟩ := web_unpack_prefix (text := text) h (by rw [k2]; rfl) hl
    (webUnpackEvents (F := F) (D := D) text (browserUnpack b t fs src dest)).length
  obtain ⟨_, h5, h6, h7⟩ := h4 (Nat.le_refl _)
  rw [List.take_of_length_le (Nat.le_refl _)] at h1
  refine ⟨s', _, h1, rfl, ?_⟩
  show _ ∧ ∀ x, s'.page.stage.errorText = some x ↔ _
  cases hr : (browserUnpack b t fs src dest).reply with
  | ok u =>
    rw [(h5 hr).1]
    exact ⟨⟨fun _ => rfl, fun _ => rfl⟩, fun x => ⟨nofun, nofun⟩⟩
  | err e =>
    rw [(h6 e hr).1]
    refine ⟨⟨nofun, nofun⟩, fun x => ⟨fun hx => ⟨e, rfl, by cases hx; rfl⟩, ?_⟩⟩
    rintro ⟨e', he, rfl⟩
    cases he
    rfl
  | panic =>
    rw [(h7 (.inl hr)).1, k1]
    exact ⟨⟨nofun, nofun⟩, fun x => ⟨nofun, nofun⟩⟩
  | hang =>
    rw [(h7 (.inr hr)).1, k1]
    exact ⟨⟨nofun, nofun⟩, fun x => ⟨nofun, nofun⟩⟩

/-! ## C111: the page "Compress" -/

/-- **C111, compressing.**  Here the reports of the job are arbitrary.  If the job succeeds, the page shows that it has
finished and no error; if it ends with an error, the page shows its text. -/
theorem C111_compress {es : List (UiEvent (CompMsg F D) F D)} {s : UiSys (CompPage F D) (Picked F D × D)}
    (h : Happens compDef es (.ok s)) (hj : s.jobs ≠ []) (ht : s.page.inputType.isSome) (b : Browser) (t : Tool) (c : Ciso)
    (fs : HostFs) (src : WebSource) (dest : HostPath) {reports : List (CompMsg F D)}
    (hm : ∀ m ∈ reports, compDef (F := F) (D := D).midMsg m) :
    ((browserCompress b t c fs src dest).1 = .ok () →
      ∃ s' v, Happens compDef (es ++ webCompEvents text reports (browserCompress b t c fs src dest).1) (.ok s') ∧
        Shows compDef s' v ∧ s'.page.stage = .finished ∧ v.error = none) ∧
    ∀ e, (browserCompress b t c fs src dest).1 = .err e →
      ∃ s' v, Happens compDef (es ++ webCompEvents text reports (browserCompress b t c fs src dest).1) (.ok s') ∧
        Shows compDef s' v ∧ v.error = some (text e) := by
  obtain ⟨p, hp, h1⟩ := comp_reports reports es h hj ht hm
  constructor
  · intro hr
    obtain ⟨v, h2, h3, h4⟩ := comp_ends h1 hj (by simp only [hp]; exact ht) (st := .finished) (.inl rfl)
    rw [List.append_assoc] at h2
    rw [hr]
    exact ⟨_, v, h2, h3, rfl, h4⟩
  · intro e hr
    obtain ⟨v, h2, h3, h4⟩ := comp_ends h1 hj (by simp only [hp]; exact ht) (st := .error (text e)) (.inr ⟨_, rfl⟩)
    rw [List.append_assoc] at h2
    rw [hr]
    exact ⟨_, v, h2, h3, h4⟩

/-! ## The hypotheses can be met -/

/-- The hypotheses of `C111_pack` and `C111_unlisted_false` hold in a session: the job succeeds, the device is full, or the
folder cannot be listed. -/
example : (∀ x, (fileName (twoNames x)).isSome) ∧
    (∃ s, Happens (packDef twoNames twoNames) packSession (.ok s) ∧ s.jobs ≠ []) ∧
    (browserPack (pairBrowser true) sampleTool pairHost (.folder [['s']]) [['s'], ['a']]).reply = .ok () ∧
    (browserPack { pairBrowser true with faults := fun k => k = 4 } sampleTool pairHost (.folder [['s']])
      [['s'], ['a']]).reply = .err .io ∧
    sampleTool.fuel ≠ 0 ∧ pairHost [['s']] = some .dir := by
  refine ⟨fun b => by cases b <;> decide, ⟨_, rfl, by simp⟩, pair_browser_packs true, by decide +kernel, by decide, rfl⟩

/-- The hypotheses of `C111_unpack` hold in a session: an empty file is not an image. -/
example : (∃ s, Happens unpackDef (unpackSession.take 4) (.ok s) ∧ s.jobs ≠ []) ∧
    ∃ e, (browserUnpack (pairBrowser true) sampleTool (oneImage []) [['i']] []).reply = .err e :=
  ⟨⟨_, rfl, by simp⟩, _, rfl⟩

/-- The hypotheses of `C111_compress` hold in a session; compressing an empty file ends with an error. -/
example : (∃ s, Happens compDef (compStart.take 5) (.ok s) ∧ s.jobs ≠ [] ∧ s.page.inputType.isSome) ∧
    ∃ e, (browserCompress (pairBrowser true) sampleTool plainCiso (oneImage []) (.image [['i']]) []).1 = .err e :=
  ⟨⟨_, rfl, by simp, rfl⟩, _, rfl⟩

end Xdvdfs.Props
