import Verif.Proof.Tabs
import Verif.Props.Desktop

/-!
# C148: jobs of different tabs
-/

namespace Xdvdfs.Props
open Xdvdfs Spec

variable {F D : Type} {fname : F → Str} {dname : D → Str}

/-- **C148, every history.**  Whatever happens in the application, on any of the tabs: what is on a page is what its own
user and jobs have led to, but for reports of progress of other jobs; and if the application crashes, then because of
what has happened on one of the pages.  So what holds of every history of a page (C97 to C99) holds in the application. -/
theorem C148_pages {desktop : Bool} {es : List (AppEvent F D)} {r : Res (App F D)}
    (h : AppHappens desktop fname dname es r) :
    (∀ a, r = .ok a → ∃ p u c,
      (HearsMore packViaWindow (ownPack es) p ∧ Happens (packDef fname dname) p (.ok a.pack)) ∧
      (HearsMore unpackViaWindow (ownUnpack es) u ∧ Happens unpackDef u (.ok a.unpack)) ∧
      HearsMore compViaWindow (ownComp es) c ∧ Happens compDef c (.ok a.comp)) ∧
    (r = .panic → (∃ p, HearsMore packViaWindow (ownPack es) p ∧ Happens (packDef fname dname) p .panic) ∨
      (∃ u, HearsMore unpackViaWindow (ownUnpack es) u ∧ Happens unpackDef u .panic) ∨
      ∃ c, HearsMore compViaWindow (ownComp es) c ∧ Happens compDef c .panic) := by
  constructor
  · rintro a rfl
    obtain ⟨⟨⟨p, p1, p2⟩, _⟩, ⟨⟨u, u1, u2⟩, _⟩, ⟨⟨c, c1, c2⟩, _⟩⟩ := run_parts es _ a h
    exact ⟨p, u, c, ⟨p1, p2⟩, ⟨u1, u2⟩, c1, c2⟩
  · rintro rfl
    exact run_crash es _ h

/-- **C148, the browser.**  In the browser version the pages do not disturb each other: what is on a page is what its own
user and jobs have led to. -/
theorem C148_browser {es : List (AppEvent F D)} {a : App F D} (h : AppHappens false fname dname es (.ok a)) :
    Happens (packDef fname dname) (ownPack es) (.ok a.pack) ∧ Happens unpackDef (ownUnpack es) (.ok a.unpack) ∧
      Happens compDef (ownComp es) (.ok a.comp) := by
  have hq : AloneFrom false fname dname (App.init fname dname) es := by
    intro before e after a' he hr
    unfold AppHappens at h
    rw [he, runApp_append, hr] at h
    simp only [runApp] at h
    refine ⟨?_, ?_⟩
    · rintro t k p rfl
      simp [App.step] at h
    · rintro k p rfl
      simp [App.step] at h
  obtain ⟨p, u, c⟩ := run_parts es _ a h
  exact ⟨p.alone hq, u.alone hq, c.alone hq⟩

/-- **C148, the desktop, for one job at a time (partial).**  If no two jobs of the application run when one of them
reports, then in the desktop version the pages do not disturb each other, either.  Missing: other jobs that run, see
`C148_bar_false`. -/
theorem C148_desktop_partial {es : List (AppEvent F D)} {a : App F D} (h : AppHappens true fname dname es (.ok a))
    (hal : ReportsAlone fname dname es) :
    Happens (packDef fname dname) (ownPack es) (.ok a.pack) ∧ Happens unpackDef (ownUnpack es) (.ok a.unpack) ∧
      Happens compDef (ownComp es) (.ok a.comp) := by
  obtain ⟨p, u, c⟩ := run_parts es _ a h
  exact ⟨p.alone hal, u.alone hal, c.alone hal⟩

/-- **C148, one job for each page.**  In the application, too, the pages "Pack" and "Unpack" run at most one job each, and
while it runs nothing can be clicked on its page. -/
theorem C148_one_job (hf : ∀ f, (fileName (fname f)).isSome) (hd : ∀ d, (fileName (dname d)).isSome) {desktop : Bool}
    {es : List (AppEvent F D)} {a : App F D} (h : AppHappens desktop fname dname es (.ok a)) :
    ∃ v w, Shows (packDef fname dname) a.pack v ∧ Shows unpackDef a.unpack w ∧ a.jobsOf .pack ≤ 1 ∧ a.jobsOf .unpack ≤ 1 ∧
      (a.jobsOf .pack ≠ 0 → v.buttons = []) ∧ (a.jobsOf .unpack ≠ 0 → w.buttons = []) := by
  obtain ⟨p, u, _, ⟨_, hp⟩, ⟨_, hu⟩, _⟩ := (C148_pages h).1 a rfl
  obtain ⟨s, v, he, v1, v2, v3, _⟩ := C97_safe hf hd hp
  cases he
  obtain ⟨w, w1, w2, w3, _⟩ := C99_one_job_partial hu
  refine ⟨v, w, v1, w1, v2, w2, fun hne => (v3 ?_).1, fun hne => (w3 ?_).1⟩
  · intro e
    exact hne (by show a.pack.jobs.length = 0; rw [e]; rfl)
  · intro e
    exact hne (by show a.unpack.jobs.length = 0; rw [e]; rfl)

/-! ## The bar -/

/-- What the page "Pack" hears of a report while it has a job. -/
theorem pack_hears (hf : ∀ f, (fileName (fname f)).isSome) (hd : ∀ d, (fileName (dname d)).isSome)
    {es : List (UiEvent (PackMsg F D) F D)} {s : UiSys (PackPage F D) (Picked F D × F)}
    (h : Happens (packDef fname dname) es (.ok s)) {j : Picked F D × F} (hj : s.jobs = [j]) (p : Progress) :
    s.hear (packDef fname dname) [.updateProgress p] = .ok { s with page := s.page.report p } ∧
    Happens (packDef fname dname) (es ++ [.report 0 (.updateProgress p)]) (.ok { s with page := s.page.report p }) := by
  have h1 := pack_reports hf hd [.updateProgress p] es h (by rw [hj]; simp) (by
    intro m hm; simp only [List.mem_singleton] at hm; subst hm; rfl)
  refine ⟨?_, h1⟩
  obtain ⟨full, _, h2, h3⟩ := hear_own (pack_midKeeps fname dname) (heard := packViaWindow)
    (ms := [PackMsg.updateProgress p]) (by
      intro m hm; simp only [List.mem_singleton] at hm; subst hm; exact ⟨rfl, rfl⟩) s (k := 0) (by rw [hj]; exact Nat.one_pos)
  rw [h3 (by rw [hj]; rfl)] at h2
  unfold Happens at h h1
  rw [runUi_append, h] at h1
  simp only [List.map_cons, List.map_nil] at h1 h2
  rw [h1] at h2
  simp only [Option.some.injEq] at h2
  exact h2.symm

/-- What the page "Unpack" hears of a report while it has a job. -/
theorem unpack_hears {s : UiSys (UnpackPage F D) (F × D)} {j : F × D} (hj : s.jobs = [j]) (p : Progress) :
    s.hear unpackDef [.updateProgress p] = .ok { s with page := s.page.report p } := by
  unfold UiSys.hear
  rw [hj]
  show UiSys.deliverAll _ [_] _ = _
  simp only [UiSys.deliverAll, UiSys.deliver]
  rw [← hj]
  show Res.ok { s with page := s.page.report p, jobs := s.jobs ++ [] } = _
  simp

/-- While a job of the page "Pack" and one of the page "Unpack" run, the page "Pack" hears all reports. -/
theorem reports_heard (hf : ∀ f, (fileName (fname f)).isSome) (hd : ∀ d, (fileName (dname d)).isSome) :
    ∀ (xs : List (AppTab × Progress)) {a : App F D} {es : List (UiEvent (PackMsg F D) F D)} {j : Picked F D × F} {ju : F × D},
    (∀ x ∈ xs, x.1 ≠ .compress) → Happens (packDef fname dname) es (.ok a.pack) → a.pack.jobs = [j] →
    a.unpack.jobs = [ju] → a.comp.jobs = [] →
    ∃ a' es', runApp true fname dname (xs.map fun x => .progress x.1 0 x.2) a = some (.ok a') ∧
      Happens (packDef fname dname) es' (.ok a'.pack) ∧
      a'.pack = { a.pack with page := (xs.map Prod.snd).foldl (fun p r => p.report r) a.pack.page } := by
  intro xs
  induction xs with
  | nil => intro a es j ju _ h _ _ _; exact ⟨a, es, rfl, h, rfl⟩
  | cons x xs ih =>
    intro a es j ju hx h hj hju hc
    obtain ⟨g1, g2⟩ := pack_hears hf hd h hj x.2
    have hstep : a.step true fname dname (.progress x.1 0 x.2) = some (.ok { a with
        pack := { a.pack with page := a.pack.page.report x.2 }
        unpack := { a.unpack with page := a.unpack.page.report x.2 } }) := by
      have hlt : 0 < a.jobsOf x.1 := by
        have := hx x (by simp)
        cases ht : x.1 with
        | pack => show 0 < a.pack.jobs.length; rw [hj]; exact Nat.one_pos
        | unpack => show 0 < a.unpack.jobs.length; rw [hju]; exact Nat.one_pos
        | compress => exact absurd ht this
      have hcomp : a.comp.hear compDef [.updateProgress x.2] = .ok a.comp := by
        unfold UiSys.hear
        rw [hc]
        rfl
      simp only [App.step]
      rw [if_pos ⟨trivial, hlt⟩, g1, unpack_hears hju, hcomp]
      rfl
    obtain ⟨a', es', k1, k2, k3⟩ := ih (a := { a with
        pack := { a.pack with page := a.pack.page.report x.2 }
        unpack := { a.unpack with page := a.unpack.page.report x.2 } }) (j := j) (ju := ju)
      (fun y hy => hx y (by simp [hy])) g2 hj hju hc
    refine ⟨a', es', ?_, k2, ?_⟩
    · simp only [List.map_cons, runApp, hstep]
      exact k1
    · rw [k3]
      rfl

/-- **C148 is false in the desktop version.**  A directory with `n` entries is packed on one tab while an image is
unpacked on another.  All reports of both jobs reach both pages: if the image's first entry is reported after all of
those of the directory, the page "Pack" shows that `n + 1` of `n` entries are done. -/
theorem C148_bar_false (hf : ∀ f, (fileName (fname f)).isSome) (hd : ∀ d, (fileName (dname d)).isSome)
    {es : List (AppEvent F D)} {a : App F D} (hh : AppHappens true fname dname es (.ok a)) {i : Picked F D} {f : F}
    (hj : a.pack.jobs = [(i, f)]) (h0 : a.pack.page.progress = 0) {fu : F} {du : D} (hju : a.unpack.jobs = [(fu, du)])
    (hc : a.comp.jobs = [])
    {h : Host} {t : Tool} {R : HostFs → DirReader} {fs : HostFs} {name : Str} {src dir : HostPath} {img : Bytes}
    (ho : OutputIn h fs (fname f) name dir) (hst : h.stat fs (pickedName fname dname i) = some (src, .dir))
    (hp : HostPacksTo t (R (fs.set (dir ++ [name]) (.file []))) (fs.set (dir ++ [name]) (.file [])) src img)
    {h' : Host} {clones : Bool} {fuel m : Nat} {fs' : HostFs} {x : Str} {sx : Nat} {rest : List Progress}
    (hu : (desktopUnpack h' clones fuel fs' (fname fu) (dname du)).sent = .fileCount m :: .fileAdded x sx :: rest) :
    ∃ n, HasEntries (stdFs (R (fs.set (dir ++ [name]) (.file []))) (fs.set (dir ++ [name]) (.file [])) src).readDir n ∧
      (n + 1 < 2 ^ 32 → ∃ a' v,
        AppHappens true fname dname (es ++ (((desktopUnpack h' clones fuel fs' (fname fu) (dname du)).sent.take 1).map
            (fun p => .progress .unpack 0 p) ++
          (desktopPack h t (fun fs src => stdFs (R fs) fs src) (fun _ => none) fs (pickedName fname dname i)
            (fname f)).sent.map (fun p => .progress .pack 0 p) ++
          (((desktopUnpack h' clones fuel fs' (fname fu) (dname du)).sent.drop 1).take 1).map
            (fun p => .progress .unpack 0 p))) (.ok a') ∧
        Shows (packDef fname dname) a'.pack v ∧ v.done.toNat = n + 1 ∧ v.total.toNat = n ∧ ¬ ShowsSense v) := by
  obtain ⟨n, log, host, hn, hl, hrun⟩ := packRun_log ho hst hp
  refine ⟨n, hn, fun hsmall => ?_⟩
  rw [hrun, hu]
  obtain ⟨p0, _, _, ⟨_, hap⟩, _⟩ := (C148_pages hh).1 a rfl
  obtain ⟨a', es', k1, k2, k3⟩ := reports_heard hf hd ((.unpack, .fileCount m) :: log.map (fun p => (.pack, p)) ++
    [(.unpack, .fileAdded x sx)]) (by
      intro y hy
      simp only [List.cons_append, List.mem_cons, List.mem_append, List.mem_map, List.not_mem_nil, or_false] at hy
      rcases hy with rfl | ⟨q, _, rfl⟩ | rfl <;> simp) hap hj hju hc
  obtain ⟨_, he, hi⟩ := pack_happens hf hd k2
  cases he
  obtain ⟨v, hv, _, _, _, _, _, v1, v2, v3, _⟩ := packView_ok hf hd a'.pack.page hi.typed
  have hb := (packLog_bar hl (by omega) (a.pack.page.report (.fileCount m)) h0 log.length).2 (Nat.le_refl _)
  rw [List.take_length] at hb
  have hpage : a'.pack.page = (log.foldl (fun p r => p.report r) (a.pack.page.report (.fileCount m))).report
      (.fileAdded x sx) := by
    rw [k3]
    simp [List.foldl_append, Function.comp_def]
  have hdone : v.done.toNat = n + 1 := by
    rw [v1, hpage]
    show ((log.foldl (fun p r => p.report r) (a.pack.page.report (.fileCount m))).progress + 1).toNat = _
    rw [UInt32.toNat_add, hb.2]
    show (n + 1) % 2 ^ 32 = n + 1
    omega
  have htotal : v.total.toNat = n := by
    rw [v2, hpage]
    exact hb.1
  refine ⟨a', v, ?_, hv, hdone, htotal, fun hs => ?_⟩
  · unfold AppHappens at hh ⊢
    rw [runApp_append, hh]
    simp only
    rw [← k1]
    congr 1
    simp
  · have := hs.1
    omega

/-! ## The hypotheses are met -/

/-- A job that unpacks an image that was packed reports how many entries there are, and then the first one. -/
theorem unpack_first {S : SourceFs} {pf : Nat} {faults : Faults} {img0 : Bytes} {s' : PackState ImgFile}
    {content : Path → Bytes} (hb : Bounded S) (hf : FaithfulTo S content)
    (hpack : createImage (fileEnv S faults) pf ⟨⟨img0, []⟩, []⟩ = (.ok (), s'))
    {p : Path} {e : FileEntry} (he : EntryIn S.readDir p e) {h : Host} {fs : HostFs} {source dest : Str} {q : HostPath}
    (hstat : h.stat fs source = some (q, .file s'.dev.img)) (clones : Bool) :
    ∃ n, ∀ fuel, n < fuel → ∃ m x rest,
      (desktopUnpack h clones fuel fs source dest).sent = .fileCount m :: .fileAdded x 0 :: rest := by
  obtain ⟨vol, v1, _, _, _, all, _, a2, listed, a3, a4⟩ := pack_success hb hf hpack
  have hag := offsetDev_zero (fileDev s'.dev.img)
  refine ⟨all.length + 1, fun fuel hfu => ?_⟩
  have hlen : listed.length = all.length := by
    have := a4.length_eq
    simpa using this
  have hrun : (desktopUnpack h clones fuel fs source dest).sent =
      .fileCount listed.length :: (deskUnpackLoop h q 0 clones dest listed fs).2.1 := by
    unfold desktopUnpack
    simp only [hstat, offsetNew_zero v1, hag.readVolume, v1, hag.fileTree, a3 fuel (by omega)]
  rw [hrun]
  cases listed with
  | nil =>
    have hall := List.eq_nil_of_length_eq_zero hlen.symm
    have := (a2 p e).2 he
    rw [hall] at this
    cases this
  | cons x xs =>
    refine ⟨(x :: xs).length, pathJoin (pathJoin dest (trimSlashes x.1)) x.2.nameStr, ?_⟩
    simp only [deskUnpackLoop]
    split
    · exact ⟨_, rfl⟩
    · exact ⟨[], rfl⟩

/-- The user packs `/g.1` into `/x.iso` on one tab, and unpacks `/i` into `/g.1` on another. -/
def twoTabs : List (AppEvent Bool Unit) :=
  deskSession.map .pack ++ [.pack (.choose (.file false)), .select .unpack, .unpack (.click (.input .openFile)),
    .unpack (.choose (.file true)), .unpack (.click (.output .openDirectory)), .unpack (.choose (.dir ()))]

/-- C148: both jobs run, and the bar of the page "Pack" shows an entry too many. -/
example (desktop : Bool) : ∃ a, AppHappens desktop deskFile deskDir twoTabs (.ok a) ∧ a.jobsOf .pack = 1 ∧ a.jobsOf .unpack = 1 :=
  ⟨_, by cases desktop <;> rfl, rfl, rfl⟩

example : ∃ img fuel n, (n + 1 < 2 ^ 32 → ∃ es a v, AppHappens true deskFile deskDir (twoTabs ++ es) (.ok a) ∧
      Shows (packDef deskFile deskDir) a.pack v ∧ v.done.toNat = n + 1 ∧ v.total.toNat = n) ∧
    (desktopUnpack ⟨[], fun _ => .none⟩ true fuel (oneImage img) (deskFile true) (deskDir ())).sent ≠ [] ∧
    HasEntries (stdFs (listReader ([['x', '.', 'i', 's', 'o']] :: gamesDom)
      (twoGames.set ([] ++ [['x', '.', 'i', 's', 'o']]) (.file []))) (twoGames.set ([] ++ [['x', '.', 'i', 's', 'o']])
      (.file [])) [['g', '.', '1']]).readDir n := by
  obtain ⟨s1, k1⟩ := sample_packs []
  obtain ⟨m, hm⟩ := unpack_first sample'_bounded sample'_faithful k1 ((sample_entries _ _).2 (.inl ⟨rfl, rfl⟩))
    (h := ⟨[], fun _ => .none⟩) (fs := oneImage s1.dev.img) (source := deskFile true) (dest := deskDir ()) (q := [['i']])
    rfl true
  obtain ⟨cnt, x, rest, hs⟩ := hm (m + 1) (by omega)
  obtain ⟨img, hp⟩ := flat_hostPacks (t := sampleTool) (r := listReader ([['x', '.', 'i', 's', 'o']] :: gamesDom)
      (twoGames.set ([] ++ [['x', '.', 'i', 's', 'o']]) (.file []))) (fs := twoGames.set ([] ++ [['x', '.', 'i', 's', 'o']])
      (.file [])) (src := [['g', '.', '1']]) a1_ok rfl (by decide)
  obtain ⟨n, h1, h2⟩ := C148_bar_false (R := fun fs => listReader ([['x', '.', 'i', 's', 'o']] :: gamesDom) fs)
    desk_named.1 desk_named.2 (es := twoTabs) (i := .dir ()) (f := false) (fu := true) (du := ()) rfl rfl rfl rfl rfl
    xiso_output (t := sampleTool) (src := [['g', '.', '1']]) rfl hp hs
  refine ⟨_, _, n, fun hn => ?_, by rw [hs]; simp, h1⟩
  obtain ⟨a', v, g1, g2, g3, g4, _⟩ := h2 hn
  exact ⟨_, a', v, g1, g2, g3, g4⟩

/-- C148: in the first session only one job runs, and its reports are heard by no other page. -/
example : ∃ a, AppHappens true deskFile deskDir (deskSession.map .pack ++ [.pack (.choose (.file false)), .select .compress,
      .progress .pack 0 (.fileCount 3)]) (.ok a) ∧
    ReportsAlone deskFile deskDir (deskSession.map .pack ++ [.pack (.choose (.file false)), .select .compress,
      .progress .pack 0 (.fileCount 3)]) := by
  refine ⟨_, rfl, ?_⟩
  intro before e after a he hr
  rcases before with _ | ⟨b0, _ | ⟨b1, _ | ⟨b2, _ | ⟨b3, _ | ⟨b4, _ | ⟨b5, _ | ⟨b6, before⟩⟩⟩⟩⟩⟩⟩ <;>
    simp only [deskSession, List.map_cons, List.map_nil, List.cons_append, List.nil_append, List.cons.injEq] at he
  · obtain ⟨rfl, _⟩ := he; exact ⟨by simp, by simp⟩
  · obtain ⟨_, rfl, _⟩ := he; exact ⟨by simp, by simp⟩
  · obtain ⟨_, _, rfl, _⟩ := he; exact ⟨by simp, by simp⟩
  · obtain ⟨_, _, _, rfl, _⟩ := he; exact ⟨by simp, by simp⟩
  · obtain ⟨_, _, _, _, rfl, _⟩ := he; exact ⟨by simp, by simp⟩
  · obtain ⟨_, _, _, _, _, rfl, _⟩ := he; exact ⟨by simp, by simp⟩
  · obtain ⟨rfl, rfl, rfl, rfl, rfl, rfl, rfl, _⟩ := he
    cases hr
    exact ⟨fun _ _ _ _ => rfl, by simp⟩
  · obtain ⟨_, _, _, _, _, _, _, he⟩ := he
    cases before <;> cases he

end Xdvdfs.Props
