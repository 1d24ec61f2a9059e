import Verif.Proof.Desktop

/-!
# C100 to C104: the desktop application
-/

namespace Xdvdfs.Props

open Xdvdfs Xdvdfs.Spec

variable {fname : F → Str} {dname : D → Str}

/-! ## C100: failures are shown -/

/-- A run of `pack_image` that answers leaves the page "Pack" finished. -/
theorem pack_run (hf : ∀ f, (fileName (fname f)).isSome) (hd : ∀ d, (fileName (dname d)).isSome)
    {es : List (UiEvent (PackMsg F D) F D)} {s : UiSys (PackPage F D) (Picked F D × F)}
    (h : Happens (packDef fname dname) es (.ok s)) (hj : s.jobs ≠ []) {r : DeskRun} (hr : r.reply = .ok none) :
    ∃ s', Happens (packDef fname dname) (es ++ packEvents r) (.ok s') ∧ s'.jobs = [] ∧
      s'.page = { r.sent.foldl (fun p r => p.report r) { s.page with stage := .packing .packingImage } with
        stage := .finished } := by
  have h1 := pack_reports hf hd (.changeState (.packing .packingImage) :: r.sent.map .updateProgress) es h hj (by
    intro m hm
    rcases List.mem_cons.1 hm with rfl | hm
    · rfl
    · obtain ⟨p, _, rfl⟩ := List.mem_map.1 hm
      rfl)
  obtain ⟨s', h2, h3, h4⟩ := pack_ends hf hd h1 hj (st := .finished) (.inl rfl)
  refine ⟨s', ?_, h4, ?_⟩
  · have : packEvents r = List.map (UiEvent.report 0) (PackMsg.changeState (F := F) (D := D) (.packing .packingImage) ::
        r.sent.map .updateProgress) ++ [.ends 0 (.changeState .finished)] := by
      simp [packEvents, hr, endState]
    rw [this, ← List.append_assoc]
    exact h2
  · rw [h3]
    simp only [List.foldl_cons, mid_fold]
    rfl

/-- **C100 is false for the page "Pack".**  Whatever goes wrong while the job packs: when it answers, the page shows
that it has finished, and no error. -/
theorem C100_pack_false (hf : ∀ f, (fileName (fname f)).isSome) (hd : ∀ d, (fileName (dname d)).isSome)
    {es : List (UiEvent (PackMsg F D) F D)} {s : UiSys (PackPage F D) (Picked F D × F)}
    (h : Happens (packDef fname dname) es (.ok s)) {i : Picked F D} {f : F} (hj : s.jobs = [(i, f)])
    (hst : Host) (t : Tool) (read : HostFs → HostPath → SourceFs) (faults : Faults) (fs : HostFs) {x : Option Str}
    (hr : (desktopPack hst t read faults fs (pickedName fname dname i) (fname f)).reply = .ok x) :
    ∃ s' v, Happens (packDef fname dname)
        (es ++ packEvents (desktopPack hst t read faults fs (pickedName fname dname i) (fname f))) (.ok s') ∧
      Shows (packDef fname dname) s' v ∧ s'.page.stage = .finished ∧ v.error = none ∧ s'.jobs = [] := by
  have hx : x = none := by
    unfold desktopPack at hr
    split at hr
    · split at hr
      · cases hr; rfl
      · exact quiet_ok hr
      · exact quiet_ok hr
    · cases hr; rfl
    · cases hr
    · cases hr
  subst hx
  obtain ⟨s', h1, h2, h3⟩ := pack_run hf hd h (by rw [hj]; simp) hr
  obtain ⟨_, he, hi⟩ := pack_happens hf hd h1
  cases he
  obtain ⟨v, hv, _, _, _, _, _, _, _, _, hev⟩ := packView_ok hf hd s'.page hi.typed
  refine ⟨s', v, h1, hv, by rw [h3], ?_, h2⟩
  rw [hev, h3]
  rfl

/-- **C100 is false: a failure.**  Packing something that does not exist leaves an empty file, and the answer is the
same as after success. -/
theorem C100_missing_false {h : Host} {fs : HostFs} {source dest name : Str} {d : HostPath}
    (ho : OutputIn h fs dest name d) (hs : h.stat fs source = none) (hne : placeOf h source ≠ placeOf h dest) (t : Tool)
    (read : HostFs → HostPath → SourceFs) (faults : Faults) :
    (desktopPack h t read faults fs source dest).reply = .ok none ∧
      (desktopPack h t read faults fs source dest).host = fs.set (d ++ [name]) (.file []) := by
  have hs1 : h.stat (fs.set (d ++ [name]) (.file [])) source = none := by
    cases hx : h.stat (fs.set (d ++ [name]) (.file [])) source with
    | none => rfl
    | some y =>
      obtain ⟨p, n⟩ := y
      obtain ⟨_, h2, h3⟩ := stat_some hx
      have hpn : p ≠ d ++ [name] := by rw [h2, ← outputIn_place ho]; exact hne
      rw [set_other hpn] at h3
      have := stat_sameDirs (fun q => (set_sameDirs (b := []) ho.2.1 q).symm) hx h3
      rw [hs] at this
      cases this
  unfold desktopPack
  rw [openOutput_in ho]
  simp only [hs1]
  exact ⟨trivial, trivial⟩

/-- **C100 is false for the page "Unpack".** -/
theorem C100_unpack_false {es : List (UiEvent (UnpackMsg F D) F D)} {s : UiSys (UnpackPage F D) (F × D)}
    (h : Happens unpackDef es (.ok s)) {f : F} {d : D} (hj : s.jobs = [(f, d)]) (hst : Host) (clones : Bool) (fuel : Nat)
    (fs : HostFs) {x : Option Str} (hr : (desktopUnpack hst clones fuel fs (fname f) (dname d)).reply = .ok x) :
    ∃ s' v, Happens unpackDef (es ++ unpackEvents (desktopUnpack hst clones fuel fs (fname f) (dname d))) (.ok s') ∧
      Shows unpackDef s' v ∧ s'.page.stage = .finished ∧ v.error = none ∧ s'.jobs = [] := by
  have hx : (desktopUnpack hst clones fuel fs (fname f) (dname d)).reply = .ok none := by
    rw [hr]
    unfold desktopUnpack at hr
    repeat' split at hr
    all_goals first | (cases hr; done) | (cases hr; rfl) | rw [quiet_ok hr]
  have h1 := unpack_reports (.changeState .unpacking ::
    (desktopUnpack hst clones fuel fs (fname f) (dname d)).sent.map .updateProgress) es h (by rw [hj]; simp) (by
    intro m hm
    rcases List.mem_cons.1 hm with rfl | hm
    · rfl
    · obtain ⟨p, _, rfl⟩ := List.mem_map.1 hm
      rfl)
  have h2 := unpack_ends h1 (by simp [hj]) (st := .finished) (.inl rfl)
  rw [List.append_assoc] at h2
  have hev : unpackEvents (desktopUnpack hst clones fuel fs (fname f) (dname d)) =
      List.map (UiEvent.report 0) (UnpackMsg.changeState (F := F) (D := D) .unpacking ::
        (desktopUnpack hst clones fuel fs (fname f) (dname d)).sent.map .updateProgress) ++
      [.ends 0 (.changeState .finished)] := by
    simp [unpackEvents, hx, endState]
  rw [hev]
  exact ⟨_, _, h2, rfl, rfl, rfl, by simp [hj]⟩

/-- **C100 is false for the page "Compress".**  Here the reports of the job are arbitrary. -/
theorem C100_compress_false {es : List (UiEvent (CompMsg F D) F D)} {s : UiSys (CompPage F D) (Picked F D × D)}
    (h : Happens compDef es (.ok s)) {i : Picked F D} {d : D} (hj : s.jobs = [(i, d)]) (ht : s.page.inputType.isSome)
    (hst : Host) (t : Tool) (rd : DirReader) (most : Path → (off n : Nat) → Nat) (c : Ciso) (fs : HostFs)
    {x : Option Str} (hr : (desktopCompress hst t rd most c fs (pickedName fname dname i) (dname d)).1 = .ok x)
    {reports : List (CompMsg F D)} (hm : ∀ m ∈ reports, compDef (F := F) (D := D).midMsg m) :
    ∃ s' v, Happens compDef (es ++ compEvents reports
        (desktopCompress hst t rd most c fs (pickedName fname dname i) (dname d)).1) (.ok s') ∧
      Shows compDef s' v ∧ s'.page.stage = .finished ∧ v.error = none ∧ s'.jobs = [] := by
  have hx : x = none := by
    unfold desktopCompress at hr
    repeat' split at hr
    all_goals first | exact quiet_ok hr | (cases hr; rfl)
  subst hx
  obtain ⟨p, hp, h1⟩ := comp_reports (.changeState (.packing .packingImage) :: reports) es h (by rw [hj]; simp) ht (by
    intro m hm'
    rcases List.mem_cons.1 hm' with rfl | hm'
    · rfl
    · exact hm m hm')
  obtain ⟨v, h2, h3, h4⟩ := comp_ends h1 (by simp [hj]) (by simp only [hp]; exact ht) (st := .finished) (.inl rfl)
  refine ⟨_, v, ?_, h3, rfl, h4, ?_⟩
  · rw [List.append_assoc] at h2
    rw [hr]
    exact h2
  · simp [hj]

/-! ## C101: packing -/

/-- **C101.**  Packing changes nothing but the output. -/
theorem C101_only_output (h : Host) (t : Tool) (read : HostFs → HostPath → SourceFs) (faults : Faults) (fs : HostFs)
    (source dest : Str) {q : HostPath} (hq : q ≠ placeOf h dest) :
    (desktopPack h t read faults fs source dest).host q = fs q := by
  unfold desktopPack
  split
  · next out fs1 ho =>
    obtain ⟨_, h2, _, _, h5⟩ := openOutput_ok ho
    rw [← h2] at hq
    subst h5
    split
    · exact set_other hq
    · simp only [set_set]; exact set_other hq
    · simp only [set_set]; exact set_other hq
  · rfl
  · rfl
  · rfl

/-- **C101.**  If a directory that does not contain the output can be packed, and no write fails, then the output is an
image of the directory. -/
theorem C101_directory_partial {h : Host} {t : Tool} {R : HostFs → DirReader} {fs : HostFs} {source dest name : Str}
    {src d : HostPath} {img : Bytes} (hw : WellFormedHost fs) (hn : ProperNames fs) (ho : OutputIn h fs dest name d)
    (hst : h.stat fs source = some (src, .dir)) (hsep : ¬ src <+: d ++ [name])
    (hread : ReadsHost (R (fs.set (d ++ [name]) (.file []))) (fs.set (d ++ [name]) (.file [])))
    (hp : HostPacksTo t (R (fs.set (d ++ [name]) (.file []))) (fs.set (d ++ [name]) (.file [])) src img) :
    (desktopPack h t (fun fs src => stdFs (R fs) fs src) (fun _ => none) fs source dest).reply = .ok none ∧
    ∃ img, (desktopPack h t (fun fs src => stdFs (R fs) fs src) (fun _ => none) fs source dest).host =
      fs.set (d ++ [name]) (.file img) ∧ ImageOf img fs src := by
  generalize hfs1 : fs.set (d ++ [name]) (.file []) = fs1 at hread hp
  have hsrc : fs1 src = some .dir := by
    rw [← hfs1, set_other]
    · exact (stat_some hst).2.2
    · rintro rfl; exact hsep (List.prefix_refl _)
  have hst1 : h.stat fs1 source = some (src, .dir) := by
    rw [← hfs1] at hsrc ⊢
    exact stat_sameDirs (set_sameDirs ho.2.1) hst hsrc
  have hw1 : WellFormedHost fs1 := by
    rw [← hfs1]
    obtain ⟨⟨dir, _, _, hd⟩, h1, _⟩ := ho
    exact WellFormedHost.set hw (.inl h1) (.inr (by rw [List.dropLast_concat]; exact hd.2.1))
  obtain ⟨s', hc, _⟩ := hp
  have hbuf := C63_buffer_unnoticed (stdFs (R fs1) fs1 src) (cliPolicy t.early) t.fuel
  rw [hc] at hbuf
  rcases hpf : packFile (stdFs (R fs1) fs1 src) (cliPolicy t.early) (fun _ => none) t.fuel with ⟨r, b⟩
  rw [hpf] at hbuf
  obtain ⟨rfl, hb⟩ := hbuf
  have hi := packed_imageOf (t := t) hread hw1 (src := src) (by
    intro q c hne
    rw [← hfs1, set_other] at hne
    · exact hn _ c hne
    · intro e
      exact hsep (by rw [← e, List.append_assoc]; exact List.prefix_append _ _)) hpf hb
  unfold packFile at hpf
  simp only [Prod.mk.injEq] at hpf
  have hrun : desktopPack h t (fun fs src => stdFs (R fs) fs src) (fun _ => none) fs source dest =
      ⟨.ok none, (createImage (bufEnv (stdFs (R fs1) fs1 src) (cliPolicy t.early) (fun _ => none)) t.fuel
        ⟨⟨[], 0, [], 0⟩, []⟩).2.log, fs.set (d ++ [name]) (.file b.img)⟩ := by
    unfold desktopPack
    rw [openOutput_in ho, hfs1]
    simp only [hst1, hpf.1, hpf.2, quiet]
    rw [← hfs1, set_set]
  rw [hrun]
  refine ⟨rfl, b.img, rfl, ?_⟩
  intro h' host dst clones hh hfresh
  obtain ⟨n, host', g1, g2, g3⟩ := hi h' host dst clones hh hfresh
  refine ⟨n, host', g1, fun s hs => ?_, g3⟩
  rw [g2 s hs, ← hfs1, set_other]
  intro e
  exact hsep (by rw [← e]; exact List.prefix_append _ _)

/-- **C101.**  Whatever writes fail: if the output can be opened as an image afterwards, it holds the whole directory as
it was after the output was created. -/
theorem C101_complete_or_unreadable {h : Host} {t : Tool} {R : HostFs → DirReader} {fs : HostFs}
    {source dest name : Str} {src d : HostPath} (ho : OutputIn h fs dest name d) (faults : Faults)
    (hst : h.stat fs source = some (src, .dir))
    (hsp : ∀ b, ((R (fs.set (d ++ [name]) (.file []))).split b).flatten = b) :
    ∃ b, IsFile (desktopPack h t (fun fs src => stdFs (R fs) fs src) faults fs source dest).host (d ++ [name]) b ∧
      ((∀ v, readVolume (fileDev b) ≠ .ok v) ∨
        HoldsTree (fileDev b) (stdFs (R (fs.set (d ++ [name]) (.file []))) (fs.set (d ++ [name]) (.file [])) src).readDir
          (stdContent (fs.set (d ++ [name]) (.file [])) src)) := by
  generalize hfs1 : fs.set (d ++ [name]) (.file []) = fs1 at hsp ⊢
  have hne : src ≠ d ++ [name] := by
    rintro rfl
    exact ho.2.1 (stat_some hst).2.2
  have hst1 : h.stat fs1 source = some (src, .dir) := by
    rw [← hfs1]
    exact stat_sameDirs (set_sameDirs ho.2.1) hst (by rw [set_other hne]; exact (stat_some hst).2.2)
  have hrun : (desktopPack h t (fun fs src => stdFs (R fs) fs src) faults fs source dest).host =
      fs1.set (d ++ [name]) (.file (packFile (stdFs (R fs1) fs1 src) (cliPolicy t.early) faults t.fuel).2.img) := by
    unfold desktopPack
    rw [openOutput_in ho, hfs1]
    simp only [hst1]
    rfl
  rw [hrun]
  exact ⟨_, set_same _ _ _, C36_interrupted_tool (std_bounded hsp) (std_faithful hsp) _ _ _ _ (.inr rfl)⟩

/-- **C101, images.**  If an image elsewhere can be packed and the last write does not fail, then the output holds the
same tree. -/
theorem C101_image_partial {h : Host} {t : Tool} (ht : ∀ b, (t.split b).flatten = b)
    {read : HostFs → HostPath → SourceFs} {faults : Faults} {fs : HostFs} {source dest name : Str} {src d : HostPath}
    {img : Bytes} (ho : OutputIn h fs dest name d) (hst : h.stat fs source = some (src, .file img))
    (hne : src ≠ d ++ [name]) {tree : Path → Res (List FileEntry)} {content : Path → Bytes}
    (hold : ImageHolds img t.wfuel tree content) (hok : (packImage t img faults).1 = .ok ())
    (hflush : (packImage t img faults).2.buf = []) :
    (desktopPack h t read faults fs source dest).reply = .ok none ∧
    ∃ out, IsFile (desktopPack h t read faults fs source dest).host (d ++ [name]) out ∧
      HoldsTree (fileDev out) tree content ∧
      IsFile (desktopPack h t read faults fs source dest).host src img := by
  have hst1 : h.stat (fs.set (d ++ [name]) (.file [])) source = some (src, .file img) :=
    stat_sameDirs (set_sameDirs ho.2.1) hst (by rw [set_other hne]; exact (stat_some hst).2.2)
  have heq := deskImageOpen_eq t img faults
  have hrun : desktopPack h t read faults fs source dest = ⟨.ok none, (deskImageOpen t img faults).2.log,
      fs.set (d ++ [name]) (.file (packImage t img faults).2.img)⟩ := by
    unfold desktopPack
    rw [openOutput_in ho]
    simp only [hst1, set_set, heq.1, heq.2]
    rw [show (packImageOpen t img faults).1 = .ok () from hok]
    rfl
  rw [hrun]
  refine ⟨rfl, _, set_same _ _ _, (packImage_success ht hold hok hflush).1, ?_⟩
  show HostFs.set _ _ _ _ = _
  rw [set_other hne]
  exact (stat_some hst).2.2

/-- **C101 is false: packing an image onto itself.**  If the image is chosen as the output, as can be done in the
dialog, its content is lost, and the answer is the same as after success. -/
theorem C101_own_output_false {h : Host} {t : Tool} {read : HostFs → HostPath → SourceFs} {faults : Faults}
    {fs : HostFs} {path name : Str} {d : HostPath} (ho : OutputIn h fs path name d) {img : Bytes}
    (hst : h.stat fs path = some (d ++ [name], .file img)) :
    (desktopPack h t read faults fs path path).reply = .ok none ∧
      IsFile (desktopPack h t read faults fs path path).host (d ++ [name]) [] := by
  have hst1 : h.stat (fs.set (d ++ [name]) (.file [])) path = some (d ++ [name], .file []) := by
    obtain ⟨⟨dir, rfl, hn, hd⟩, h1, _⟩ := ho
    rw [stat_append (prefixNames_sameDirs hd (set_sameDirs h1)) hn, set_same]
    rfl
  obtain ⟨e, he⟩ : ∃ e, offsetNew (fileDev []) = .err e := ⟨_, rfl⟩
  unfold desktopPack
  rw [openOutput_in ho]
  simp only [hst1, deskImageOpen, he]
  refine ⟨rfl, ?_⟩
  show HostFs.set _ _ _ _ = _
  rw [set_same]
  rfl

/-! ## C102: unpacking -/

/-- The host after unpacking is the one the command line tool leaves, and the answer says nothing about how it went. -/
theorem desktopUnpack_eq (h : Host) (clones : Bool) (fuel : Nat) (fs : HostFs) (source dest : Str) :
    (desktopUnpack h clones fuel fs source dest).reply = quiet (cmdUnpackArgs h clones fuel fs source (some dest)).1 ∧
    (desktopUnpack h clones fuel fs source dest).host = (cmdUnpackArgs h clones fuel fs source (some dest)).2 := by
  unfold desktopUnpack cmdUnpackArgs
  simp only
  cases h.stat fs source with
  | none => exact ⟨rfl, rfl⟩
  | some x =>
    obtain ⟨p, n⟩ := x
    cases n with
    | dir => exact ⟨rfl, rfl⟩
    | file img =>
      simp only
      cases offsetNew (fileDev img) with
      | ok base =>
        simp only
        cases readVolume (offsetDev (fileDev img) base) with
        | ok vol =>
          simp only
          cases fileTree (offsetDev (fileDev img) base) vol.root fuel with
          | ok tree =>
            simp only
            have hl := (deskUnpackLoop_eq h p base clones dest tree fs).1
            exact ⟨congrArg (fun x => quiet x.1) hl, congrArg Prod.snd hl⟩
          | _ => exact ⟨rfl, rfl⟩
        | _ => exact ⟨rfl, rfl⟩
      | _ => exact ⟨rfl, rfl⟩

/-- **C102.**  Unpacking an image that was packed from a source, into a place where nothing is, gives the tree of the
source; nothing changes outside, and the image is kept.  What is missing from C102 are places that are not fresh: see
`C102_image_lost_false`. -/
theorem C102_unpacked_partial {h : Host} (hfaults : ∀ p, h.faults p = .none) (clones : Bool) {fs : HostFs}
    (hw : WellFormedHost fs) (hcwd : fs h.cwd = some .dir) {source dest : Str} {S : SourceFs} {content : Path → Bytes}
    (hst : StoredImage h fs source S content) (hfresh : FreshDest h dest fs)
    (hout : ¬ placeOf h dest <+: placeOf h source) :
    ∃ n, ∀ fuel, n < fuel → (desktopUnpack h clones fuel fs source dest).reply = .ok none ∧
      TreeAt (desktopUnpack h clones fuel fs source dest).host (placeOf h dest) S.readDir content ∧
      ChangesOnlyInside h dest fs (desktopUnpack h clones fuel fs source dest).host := by
  obtain ⟨n, st, h1, h2, h3, _, _⟩ := stored_unpacks hfaults clones ⟨hw, hcwd⟩ hst hfresh hout
  refine ⟨n, fun fuel hf => ?_⟩
  obtain ⟨e1, e2⟩ := desktopUnpack_eq h clones fuel fs source dest
  rw [h1 fuel hf] at e1 e2
  rw [e1, e2]
  exact ⟨rfl, h2, h3⟩

/-- **C102 is false: the image is lost.**  An image `g.iso` that holds a file `g.iso`, unpacked into the folder it is in,
overwrites itself; where files are cloned by the host it is empty afterwards. -/
theorem C102_image_lost_false (img0 : Bytes) : ∃ s',
    createImage (fileEnv (flatFs [(['g', '.', 'i', 's', 'o'], [7])]) (fun _ => none)) 1 ⟨⟨img0, []⟩, []⟩ = (.ok (), s') ∧
    WellFormedHost (sampleHostFs.set [['w'], ['g', '.', 'i', 's', 'o']] (.file s'.dev.img)) ∧
    ∀ fuel, 2 < fuel →
      (desktopUnpack sampleHost true fuel (sampleHostFs.set [['w'], ['g', '.', 'i', 's', 'o']] (.file s'.dev.img))
        ['g', '.', 'i', 's', 'o'] ['.']).reply = .ok none ∧
      IsFile (desktopUnpack sampleHost true fuel (sampleHostFs.set [['w'], ['g', '.', 'i', 's', 'o']] (.file s'.dev.img))
        ['g', '.', 'i', 's', 'o'] ['.']).host [['w'], ['g', '.', 'i', 's', 'o']] [] := by
  obtain ⟨s', h1, h2, st, h3, h4⟩ := C86_image_kept_false img0
  refine ⟨s', h1, h2, fun fuel hf => ?_⟩
  obtain ⟨e1, e2⟩ := desktopUnpack_eq sampleHost true fuel
    (sampleHostFs.set [['w'], ['g', '.', 'i', 's', 'o']] (.file s'.dev.img)) ['g', '.', 'i', 's', 'o'] ['.']
  rw [h3 fuel hf] at e1 e2
  rw [e1, e2]
  exact ⟨rfl, h4⟩

/-! ## C103: compressing -/

section
variable {h : Host} {t : Tool} {r : DirReader} {most : Path → (off n : Nat) → Nat} {c : Ciso} {fs fs' : HostFs}
  {source dest name stem : Str} {src d : HostPath}

/-- **C103 is false.**  The user chooses a folder for the output, but whatever happens, nothing changes in this
folder. -/
theorem C103_in_folder_false (hn : NumberedParts c) (ho : OutputAt h fs dest name stem d)
    (hd : fs (d ++ [name]) = some .dir) :
    ∀ q, d ++ [name] <+: q → (desktopCompress h t r most c fs source dest).2 q = fs q := by
  obtain ⟨dir, hb, hp⟩ := OutputAt.beside hn ho
  have key : ∀ {fs'}, PartsChange (fun i => placeOf h (c.partName dest i)) fs fs' →
      ∀ q, d ++ [name] <+: q → fs' q = fs q := by
    intro fs' hch q hq
    rcases hch q with k | ⟨k, _, i, rfl⟩
    · exact k
    · exfalso
      simp only [hb.names i, place_append hp (partFile_name hb.ok (i + 1))] at hq k
      have := hq.eq_of_length (by simp)
      rw [← this] at k
      exact k hd
  unfold desktopCompress
  split
  · exact fun _ _ => rfl
  · exact key (compressDir_changes rfl)
  · exact key (compressImage_changes rfl)

/-- **C103, what happens instead.**  A directory that packs is compressed into parts beside the chosen folder, named
after the folder; the parts hold the image that packing makes, encoded, and nothing else changes. -/
theorem C103_parts_beside_partial (hs : ∀ b, (r.split b).flatten = b) (hm : WholeReads most) (hc : CisoWorks c)
    (hn : NumberedParts c) (hst : h.stat fs source = some (src, .dir)) (ho : OutputAt h fs dest name stem d)
    (hno : NoPartInSource fs src d stem) (hpw : PartsWritable h fs d stem) {img : Bytes}
    (hp : HostPacksTo t r fs src img) :
    (desktopCompress h t r most c fs source dest).1 = .ok none ∧
    StoredParts (desktopCompress h t r most c fs source dest).2 d stem (partsOf c img) ∧
    ∀ q, (∀ i, i < (partsOf c img).length → q ≠ d ++ [partFile stem (i + 1)]) →
      (desktopCompress h t r most c fs source dest).2 q = fs q := by
  obtain ⟨dir, hb, hd⟩ := OutputAt.beside hn ho
  obtain ⟨fs', hw⟩ := compressDir_succeeds hs hm hb hd hno hpw hp
  obtain ⟨img', h1, _, h2, h3⟩ := compressDir_ok hs hm hc hb hd hno hw
  have : img' = img := by
    obtain ⟨s1, k1, rfl⟩ := h1
    obtain ⟨s2, k2, rfl⟩ := hp
    rw [k1] at k2
    cases k2
    rfl
  subst this
  have hrun : desktopCompress h t r most c fs source dest = (.ok none, fs') := by
    unfold desktopCompress
    simp only [hst, hw]
    rfl
  rw [hrun]
  exact ⟨rfl, h2, h3⟩

/-- **C103.**  Where the command line tool does not refuse the paths, the application leaves the same host. -/
theorem C103_like_tool (hre : compressRefused h fs source dest = false) :
    (desktopCompress h t r most c fs source dest).2 = (cmdCompressArgs h t r most c fs source (some dest)).2 := by
  unfold desktopCompress
  split
  · next hs => unfold cmdCompressArgs; simp only [hs]
  · next hs => rw [cmdCompressArgs_eq (image := some dest) hs rfl, if_neg (by simp [hre])]
  · next hs => rw [cmdCompressArgs_eq (image := some dest) hs rfl, if_neg (by simp [hre])]

end

/-! ## C104: the bar -/

/-- While a run of `pack_image` is the only job: after any number of its events, the counters of the page come from the
same number of its reports. -/
theorem pack_prefix (hf : ∀ f, (fileName (fname f)).isSome) (hd : ∀ d, (fileName (dname d)).isSome)
    {es : List (UiEvent (PackMsg F D) F D)} {s : UiSys (PackPage F D) (Picked F D × F)}
    (h : Happens (packDef fname dname) es (.ok s)) (hj : s.jobs ≠ []) {r : DeskRun} (hr : r.reply = .ok none) (k : Nat) :
    ∃ s' p0 j, Happens (packDef fname dname) (es ++ (packEvents r).take k) (.ok s') ∧ p0.progress = s.page.progress ∧
      s'.page.progress = ((r.sent.take j).foldl (fun p r => p.report r) p0 : PackPage F D).progress ∧
      s'.page.count = ((r.sent.take j).foldl (fun p r => p.report r) p0 : PackPage F D).count ∧
      ((packEvents (F := F) (D := D) r).length ≤ k → r.sent.length ≤ j ∧ s'.page.stage = .finished) := by
  have hev : packEvents r = List.map (UiEvent.report 0) (PackMsg.changeState (F := F) (D := D) (.packing .packingImage) ::
      r.sent.map .updateProgress) ++ [.ends 0 (.changeState .finished)] := by
    simp [packEvents, hr, endState]
  by_cases hk : (packEvents (F := F) (D := D) r).length ≤ k
  · rw [List.take_of_length_le hk]
    obtain ⟨s', h1, _, h3⟩ := pack_run hf hd h hj hr
    exact ⟨s', { s.page with stage := .packing .packingImage }, r.sent.length, h1, rfl,
      by rw [h3, List.take_length], by rw [h3, List.take_length], fun _ => ⟨Nat.le_refl _, by rw [h3]⟩⟩
  · rw [hev] at hk ⊢
    rw [List.take_append_of_le_length (by simp at hk ⊢; omega), ← List.map_take]
    have h1 := pack_reports hf hd ((PackMsg.changeState (.packing .packingImage) :: r.sent.map .updateProgress).take k) es
      h hj (by
        intro m hm
        rcases List.mem_cons.1 (List.mem_of_mem_take hm) with rfl | hm
        · rfl
        · obtain ⟨p, _, rfl⟩ := List.mem_map.1 hm
          rfl)
    cases k with
    | zero => exact ⟨_, s.page, 0, h1, rfl, rfl, rfl, fun h => absurd h hk⟩
    | succ k =>
      refine ⟨_, { s.page with stage := .packing .packingImage }, k, h1, rfl, ?_, ?_, fun h => absurd h hk⟩
      · simp only [List.take_succ_cons, List.foldl_cons, ← List.map_take, mid_fold]
        rfl
      · simp only [List.take_succ_cons, List.foldl_cons, ← List.map_take, mid_fold]
        rfl

/-- The choice that starts a job sets the bar back. -/
theorem pack_starts (hf : ∀ f, (fileName (fname f)).isSome) (hd : ∀ d, (fileName (dname d)).isSome)
    {es : List (UiEvent (PackMsg F D) F D)} {x : Picked F D} {s : UiSys (PackPage F D) (Picked F D × F)}
    (h : Happens (packDef fname dname) (es ++ [.choose x]) (.ok s)) (hj : s.jobs ≠ []) : s.page.progress = 0 := by
  unfold Happens at h
  rw [runUi_append] at h
  cases hs0 : runUi (packDef fname dname) es (UiSys.init (packDef fname dname)) with
  | none => rw [hs0] at h; cases h
  | some r0 =>
    obtain ⟨s0, rfl, hi⟩ := pack_happens hf hd hs0
    rw [hs0] at h
    simp only [runUi] at h
    have hstep : s0.step (packDef fname dname) (.choose x) = some (.ok s) := by
      split at h
      · next e => cases h; exact e
      · exact h
    have hidle := hi.idle
    simp only [UiSys.step] at hstep
    split at hstep
    · next hdl =>
      split at hstep
      · simp only [Option.some.injEq, UiSys.deliver] at hstep
        obtain ⟨a, h1, h2⟩ := Res.bind_eq_ok.1 hstep
        obtain ⟨b, _, h3⟩ := Res.bind_eq_ok.1 h2
        cases h3
        cases h1
        rw [hidle (by rw [hdl]; rfl)] at hj
        simp at hj
      · cases hstep
    · next hdl =>
      split at hstep
      · simp only [Option.some.injEq, UiSys.deliver] at hstep
        obtain ⟨a, h1, h2⟩ := Res.bind_eq_ok.1 hstep
        obtain ⟨b, _, h3⟩ := Res.bind_eq_ok.1 h2
        cases h3
        cases x with
        | file f =>
          simp only [packDef, PackPage.update] at h1
          split at h1
          · cases h1; rfl
          · cases h1
        | dir d =>
          cases h1
          rw [hidle (by rw [hdl]; rfl)] at hj
          simp at hj
      · cases hstep
    · cases hstep

/-- The bar of the page "Pack", from the choice of the output on, while a job reports `log`. -/
theorem pack_shows (hf : ∀ f, (fileName (fname f)).isSome) (hd : ∀ d, (fileName (dname d)).isSome)
    {es : List (UiEvent (PackMsg F D) F D)} {x : Picked F D} {s : UiSys (PackPage F D) (Picked F D × F)}
    (hh : Happens (packDef fname dname) (es ++ [.choose x]) (.ok s)) {i : Picked F D} {f : F} (hj : s.jobs = [(i, f)])
    {n : Nat} {log : List Progress} {host : HostFs} (hl : PackLog n log) (hsmall : 100 * n < 2 ^ 32) (k : Nat) :
    ∃ s' v, Happens (packDef fname dname) (es ++ [.choose x] ++ (packEvents ⟨.ok none, log, host⟩).take k) (.ok s') ∧
      Shows (packDef fname dname) s' v ∧ ShowsSense v ∧
      ((packEvents (F := F) (D := D) ⟨.ok none, log, host⟩).length ≤ k → ShowsAll v n) := by
  have h0 := pack_starts hf hd hh (by rw [hj]; simp)
  obtain ⟨s', p0, j, g1, g2, g3, g4, g5⟩ := pack_prefix hf hd hh (by rw [hj]; simp) (r := ⟨.ok none, log, host⟩) rfl k
  obtain ⟨_, he, hi⟩ := pack_happens hf hd g1
  cases he
  obtain ⟨v, hv, _, _, _, _, _, v1, v2, v3, v4⟩ := packView_ok hf hd s'.page hi.typed
  obtain ⟨b1, b2⟩ := packLog_bar hl (by omega) p0 (by rw [g2, h0]) j
  rw [← g3, ← g4] at b1 b2
  refine ⟨s', v, g1, hv, ?_, ?_⟩
  · unfold ShowsSense
    rw [v1, v2, v3]
    rcases b1 with b1 | ⟨b1, b1'⟩
    · rw [b1]
      exact ⟨Nat.zero_le _, by rw [percent_zero]; omega⟩
    · exact ⟨by omega, percent_le (by omega) (by omega)⟩
  · intro hk
    obtain ⟨c1, c2⟩ := g5 hk
    obtain ⟨b3, b4⟩ := b2 c1
    refine ⟨by rw [v1]; exact b4, by rw [v2]; exact b3, ?_, by rw [v4, c2]; rfl⟩
    rw [v3, show s'.page.progress = s'.page.count from UInt32.toNat_inj.1 (by omega)]
    split
    · next h0 =>
      rw [show s'.page.count = 0 from UInt32.toNat_inj.1 (by rw [b3, h0]; rfl)]
      exact percent_zero
    · next h0 =>
      refine percent_full ?_ (by omega)
      intro e
      rw [e] at b3
      exact h0 b3.symm

/-- The reports of a run of `pack_image` that packs a directory. -/
theorem packRun_log {h : Host} {t : Tool} {R : HostFs → DirReader} {fs : HostFs} {source dest name : Str}
    {src dir : HostPath} {img : Bytes} (ho : OutputIn h fs dest name dir) (hst : h.stat fs source = some (src, .dir))
    (hp : HostPacksTo t (R (fs.set (dir ++ [name]) (.file []))) (fs.set (dir ++ [name]) (.file [])) src img) :
    ∃ n log host, HasEntries (stdFs (R (fs.set (dir ++ [name]) (.file []))) (fs.set (dir ++ [name]) (.file [])) src).readDir n ∧
      PackLog n log ∧
      desktopPack h t (fun fs src => stdFs (R fs) fs src) (fun _ => none) fs source dest = ⟨.ok none, log, host⟩ := by
  generalize hfs1 : fs.set (dir ++ [name]) (.file []) = fs1 at hp ⊢
  have hst1 : h.stat fs1 source = some (src, .dir) := by
    rw [← hfs1]
    refine stat_sameDirs (set_sameDirs ho.2.1) hst ?_
    rw [set_other]
    · exact (stat_some hst).2.2
    · rintro rfl
      exact ho.2.1 (stat_some hst).2.2
  obtain ⟨s1, hc, _⟩ := hp
  have hbuf := C63_buffer_unnoticed (stdFs (R fs1) fs1 src) (cliPolicy t.early) t.fuel
  rw [hc] at hbuf
  rcases hpk : createImage (bufEnv (stdFs (R fs1) fs1 src) (cliPolicy t.early) (fun _ => none)) t.fuel
    ⟨⟨[], 0, [], 0⟩, []⟩ with ⟨r, s2⟩
  have hr : r = .ok () := by
    have h1 := hbuf.1
    unfold packFile at h1
    simp only [hpk] at h1
    exact h1
  subst hr
  obtain ⟨n, hn, hl⟩ := buffered_packLog hpk
  have hrun : desktopPack h t (fun fs src => stdFs (R fs) fs src) (fun _ => none) fs source dest =
      ⟨.ok none, s2.log, fs1.set (dir ++ [name]) (.file (dropBuf (fun _ => none) s2.dev).img)⟩ := by
    unfold desktopPack
    rw [openOutput_in ho, hfs1]
    simp only [hst1, hpk, quiet]
  exact ⟨n, s2.log, _, hn, hl, hrun⟩

/-- **C104, the page "Pack".**  The directory that is packed has `n` entries, and `100 * n` fits in 32 bits: then the bar
makes sense at every moment from the choice of the output on, and is full in the end.  Missing: sources with more
entries (`C104_large_false`). -/
theorem C104_pack_partial (hf : ∀ f, (fileName (fname f)).isSome) (hd : ∀ d, (fileName (dname d)).isSome)
    {es : List (UiEvent (PackMsg F D) F D)} {x : Picked F D} {s : UiSys (PackPage F D) (Picked F D × F)}
    (hh : Happens (packDef fname dname) (es ++ [.choose x]) (.ok s)) {i : Picked F D} {f : F} (hj : s.jobs = [(i, f)])
    {h : Host} {t : Tool} {R : HostFs → DirReader} {fs : HostFs} {name : Str} {src dir : HostPath} {img : Bytes}
    (ho : OutputIn h fs (fname f) name dir) (hst : h.stat fs (pickedName fname dname i) = some (src, .dir))
    (hp : HostPacksTo t (R (fs.set (dir ++ [name]) (.file []))) (fs.set (dir ++ [name]) (.file [])) src img) :
    ∃ n, HasEntries (stdFs (R (fs.set (dir ++ [name]) (.file []))) (fs.set (dir ++ [name]) (.file [])) src).readDir n ∧
      (100 * n < 2 ^ 32 → ∀ k, ∃ s' v, Happens (packDef fname dname) (es ++ [.choose x] ++ (packEvents
          (desktopPack h t (fun fs src => stdFs (R fs) fs src) (fun _ => none) fs (pickedName fname dname i)
            (fname f))).take k) (.ok s') ∧
        Shows (packDef fname dname) s' v ∧ ShowsSense v ∧
        ((packEvents (F := F) (D := D) (desktopPack h t (fun fs src => stdFs (R fs) fs src) (fun _ => none) fs
          (pickedName fname dname i) (fname f))).length ≤ k → ShowsAll v n)) := by
  obtain ⟨n, log, host, hn, hl, hrun⟩ := packRun_log ho hst hp
  refine ⟨n, hn, fun hsmall k => ?_⟩
  rw [hrun]
  exact pack_shows hf hd hh hj hl hsmall k

/-- **C104, the page "Pack", for images.**  The same when an image elsewhere is packed: the bar makes sense at every
moment, and is full in the end.  Missing: images with more entries (`C104_large_false`). -/
theorem C104_pack_image_partial (hf : ∀ f, (fileName (fname f)).isSome) (hd : ∀ d, (fileName (dname d)).isSome)
    {es : List (UiEvent (PackMsg F D) F D)} {x : Picked F D} {s : UiSys (PackPage F D) (Picked F D × F)}
    (hh : Happens (packDef fname dname) (es ++ [.choose x]) (.ok s)) {i : Picked F D} {f : F} (hj : s.jobs = [(i, f)])
    {h : Host} {t : Tool} {read : HostFs → HostPath → SourceFs} {faults : Faults} {fs : HostFs} {name : Str}
    {src dir : HostPath} {img : Bytes} (ho : OutputIn h fs (fname f) name dir)
    (hst : h.stat fs (pickedName fname dname i) = some (src, .file img)) (hne : src ≠ dir ++ [name])
    {tree : Path → Res (List FileEntry)} {content : Path → Bytes} (hold : ImageHolds img t.wfuel tree content)
    (hok : (packImage t img faults).1 = .ok ()) :
    ∃ n, HasEntries tree n ∧ (100 * n < 2 ^ 32 → ∀ k, ∃ s' v, Happens (packDef fname dname)
        (es ++ [.choose x] ++ (packEvents (desktopPack h t read faults fs (pickedName fname dname i) (fname f))).take k)
          (.ok s') ∧
      Shows (packDef fname dname) s' v ∧ ShowsSense v ∧
      ((packEvents (F := F) (D := D) (desktopPack h t read faults fs (pickedName fname dname i) (fname f))).length ≤ k →
        ShowsAll v n)) := by
  have hst1 : h.stat (fs.set (dir ++ [name]) (.file [])) (pickedName fname dname i) = some (src, .file img) :=
    stat_sameDirs (set_sameDirs ho.2.1) hst (by rw [set_other hne]; exact (stat_some hst).2.2)
  have heq := deskImageOpen_eq t img faults
  have hrun : desktopPack h t read faults fs (pickedName fname dname i) (fname f) =
      ⟨.ok none, (deskImageOpen t img faults).2.log, fs.set (dir ++ [name]) (.file (packImage t img faults).2.img)⟩ := by
    unfold desktopPack
    rw [openOutput_in ho]
    simp only [hst1, set_set, heq.1, heq.2]
    rw [show (packImageOpen t img faults).1 = .ok () from hok]
    rfl
  have hlog : ∃ n, HasEntries tree n ∧ PackLog n (deskImageOpen t img faults).2.log := by
    rcases hr : deskImageOpen t img faults with ⟨r, s2⟩
    have hr1 : r = .ok () := by
      have := heq.1
      rw [hr] at this
      exact this.trans hok
    subst hr1
    obtain ⟨base, vol, i1, i2, rfl, _⟩ := hold
    have hnew : ImgFs.new (offsetDev (fileDev img) base) = .ok (some ⟨offsetDev (fileDev img) base, vol, Trie.empty⟩) := by
      unfold ImgFs.new; rw [i2]
    unfold deskImageOpen at hr
    simp only [i1, hnew] at hr
    rcases repackBuffered_cases rfl hr with ⟨fs', k1, _, k3⟩ | ⟨k1, _⟩
    · obtain ⟨n, hn, hl⟩ := buffered_packLog k3
      refine ⟨n, ?_, hl⟩
      have hrd : (pureSource t.wfuel (stdIoCopier img base t.split) fs').readDir =
          imgReadDir (offsetDev (fileDev img) base) t.wfuel vol.root := by
        simp only [pureSource]; rw [k1.dev, k1.vol]
      rw [hrd] at hn
      exact hn
    · exact absurd rfl (k1 ())
  obtain ⟨n, hn, hl⟩ := hlog
  refine ⟨n, hn, fun hsmall k => ?_⟩
  rw [hrun]
  exact pack_shows hf hd hh hj hl hsmall k

/-- The same for the page "Unpack". -/
theorem unpack_starts {es : List (UiEvent (UnpackMsg F D) F D)} {x : Picked F D} {s : UiSys (UnpackPage F D) (F × D)}
    (h : Happens unpackDef (es ++ [.choose x]) (.ok s)) (hj : s.jobs ≠ []) : s.page.progress = 0 := by
  have h' := h
  unfold Happens at h
  rw [runUi_append] at h
  cases hs0 : runUi unpackDef es (UiSys.init (unpackDef (F := F) (D := D))) with
  | none => rw [hs0] at h; cases h
  | some r0 =>
    cases r0 with
    | ok s0 =>
      obtain ⟨_, _, _, hb, _⟩ := C99_one_job_partial hs0
      have hidle : s0.dialog.isSome → s0.jobs = [] := by
        intro hd
        apply Classical.byContradiction
        intro hne
        rw [(hb hne).2] at hd
        cases hd
      rw [hs0] at h
      simp only [runUi] at h
      have hstep : s0.step unpackDef (.choose x) = some (.ok s) := by
        split at h
        · next e => cases h; exact e
        · exact h
      simp only [UiSys.step] at hstep
      split at hstep
      · next hdl =>
        split at hstep
        · simp only [Option.some.injEq, unpackDeliver] at hstep
          obtain ⟨a, h1, h2⟩ := Res.bind_eq_ok.1 hstep
          cases h2
          have hn : a.2 = none := by
            cases x <;> (cases h1; rfl)
          simp [hn, hidle (by rw [hdl]; rfl)] at hj
        · cases hstep
      · next hdl =>
        split at hstep
        · simp only [Option.some.injEq, unpackDeliver] at hstep
          obtain ⟨a, h1, h2⟩ := Res.bind_eq_ok.1 hstep
          cases h2
          cases x with
          | dir d =>
            simp only [unpackDef, UnpackPage.update] at h1
            split at h1
            · cases h1; rfl
            · cases h1
          | file f =>
            cases h1
            rw [hidle (by rw [hdl]; rfl)] at hj
            simp at hj
        · cases hstep
      · cases hstep
    | _ => rw [hs0] at h; cases h

/-- Some of the reports of unpacking, on a page whose bar is set back. -/
theorem unpack_bar (paths : List Str) {n : Nat} (hn : paths.length = n) (hs : 100 * n < 2 ^ 32) (p : UnpackPage F D)
    (hp : p.progress = 0) (j : Nat) :
    (((Progress.fileCount n :: paths.map (fun x => Progress.fileAdded x 0)).take j).foldl (fun p r => p.report r)
        p).progress.toNat ≤ n ∧
    ((((Progress.fileCount n :: paths.map (fun x => Progress.fileAdded x 0)).take j).foldl (fun p r => p.report r)
        p).progress = 0 ∨
      (((Progress.fileCount n :: paths.map (fun x => Progress.fileAdded x 0)).take j).foldl (fun p r => p.report r)
        p).count.toNat = n) ∧
    (n < j → (((Progress.fileCount n :: paths.map (fun x => Progress.fileAdded x 0)).take j).foldl (fun p r => p.report r)
        p).progress.toNat = n ∧
      (((Progress.fileCount n :: paths.map (fun x => Progress.fileAdded x 0)).take j).foldl (fun p r => p.report r)
        p).count.toNat = n) := by
  cases j with
  | zero =>
    simp only [List.take_zero, List.foldl_nil, hp]
    exact ⟨Nat.zero_le _, .inl trivial, nofun⟩
  | succ j =>
    simp only [List.take_succ_cons, List.foldl_cons, ← List.map_take]
    have hcount : (p.report (.fileCount n)).count.toNat = n := by
      show (UInt32.ofNat n).toNat = n
      rw [UInt32.toNat_ofNat']
      exact Nat.mod_eq_of_lt (by omega)
    have h0 : (p.report (.fileCount n)).progress.toNat = 0 := by
      show p.progress.toNat = 0
      rw [hp]; rfl
    obtain ⟨h1, h2⟩ := unpack_added ((paths.take j).map (fun x => (x, 0))) (p.report (.fileCount n)) (n := n) (by omega) (by
      rw [h0]
      simp only [List.length_map, List.length_take]
      omega)
    simp only [List.map_map, Function.comp_def, List.length_map, List.length_take, h0, Nat.zero_add] at h1 h2
    rw [h2, h1, hcount]
    exact ⟨by omega, .inr rfl, fun _ => ⟨by omega, rfl⟩⟩

/-- **C104, the page "Unpack".**  The image was packed from a source with `n` entries, is unpacked into a place where
nothing is, and `100 * n` fits in 32 bits: then the bar makes sense at every moment from the choice of the output on, and
is full in the end.  Missing: images with more entries (`C104_large_false`). -/
theorem C104_unpack_partial {fname : F → Str} {dname : D → Str} {es : List (UiEvent (UnpackMsg F D) F D)}
    {x : Picked F D} {s : UiSys (UnpackPage F D) (F × D)} (hh : Happens unpackDef (es ++ [.choose x]) (.ok s))
    {f : F} {d : D} (hj : s.jobs = [(f, d)]) {h : Host} (hfaults : ∀ p, h.faults p = .none) (clones : Bool) {fs : HostFs}
    (hw : WellFormedHost fs) (hcwd : fs h.cwd = some .dir) {S : SourceFs} {content : Path → Bytes}
    (hst : StoredImage h fs (fname f) S content) (hfresh : FreshDest h (dname d) fs)
    (hout : ¬ placeOf h (dname d) <+: placeOf h (fname f)) :
    ∃ all : List (Path × FileEntry), all.Nodup ∧ (∀ p e, (p, e) ∈ all ↔ EntryIn S.readDir p e) ∧
      (100 * all.length < 2 ^ 32 → ∃ m, ∀ fuel, m < fuel → ∀ k, ∃ s' v, Happens unpackDef (es ++ [.choose x] ++
          (unpackEvents (desktopUnpack h clones fuel fs (fname f) (dname d))).take k) (.ok s') ∧
        Shows unpackDef s' v ∧ ShowsSense v ∧
        ((unpackEvents (F := F) (D := D) (desktopUnpack h clones fuel fs (fname f) (dname d))).length ≤ k →
          ShowsAll v all.length)) := by
  obtain ⟨n1, st, r1, _⟩ := stored_unpacks hfaults clones ⟨hw, hcwd⟩ hst hfresh hout
  obtain ⟨p, img, hstat, ⟨⟨faults, pf, img0, s1, hpack, rfl⟩, hb, hf, hnames⟩⟩ := hst
  obtain ⟨vol, v1, _, _, _, all, a1, a2, listed, a3, a4⟩ := pack_success hb hf hpack
  refine ⟨all, a1, a2, fun hsmall => ⟨max n1 (all.length + 1), fun fuel hfu k => ?_⟩⟩
  have hag := offsetDev_zero (fileDev s1.dev.img)
  have hlen : listed.length = all.length := by
    have := a4.length_eq
    simpa using this
  have hlp := deskUnpackLoop_eq h p 0 clones (dname d) listed fs
  have hcli := r1 fuel (by omega)
  have hok : (deskUnpackLoop h p 0 clones (dname d) listed fs).1 = .ok () := by
    have e1 := congrArg Prod.fst hlp.1
    simp only at e1
    rw [e1]
    unfold cmdUnpackArgs at hcli
    simp only [hstat, offsetNew_zero v1, hag.readVolume, v1, hag.fileTree, a3 fuel (by omega)] at hcli
    rw [hcli]
  have hrun : desktopUnpack h clones fuel fs (fname f) (dname d) = ⟨.ok none,
      .fileCount all.length :: (listed.map (fun x => pathJoin (pathJoin (dname d) (trimSlashes x.1)) x.2.nameStr)).map
        (fun x => Progress.fileAdded x 0), (deskUnpackLoop h p 0 clones (dname d) listed fs).2.2⟩ := by
    unfold desktopUnpack
    simp only [hstat, offsetNew_zero v1, hag.readVolume, v1, hag.fileTree, a3 fuel (by omega)]
    rw [hlp.2.2 hok, hok, hlen, List.map_map]
    rfl
  rw [hrun]
  generalize hps : listed.map (fun x => pathJoin (pathJoin (dname d) (trimSlashes x.1)) x.2.nameStr) = paths
  have hpl : paths.length = all.length := by rw [← hps, List.length_map, hlen]
  generalize (deskUnpackLoop h p 0 clones (dname d) listed fs).2.2 = host
  have h0 := unpack_starts hh (by rw [hj]; simp)
  have hev : unpackEvents (F := F) (D := D) ⟨.ok none,
        .fileCount all.length :: paths.map (fun x => Progress.fileAdded x 0), host⟩ =
      List.map (UiEvent.report 0) (UnpackMsg.changeState (F := F) (D := D) .unpacking ::
        (Progress.fileCount all.length :: paths.map (fun x => Progress.fileAdded x 0)).map .updateProgress) ++
      [.ends 0 (.changeState .finished)] := by
    simp [unpackEvents, endState]
  rw [hev]
  generalize hlog : Progress.fileCount all.length :: paths.map (fun x => Progress.fileAdded x 0) = log
  have hll : log.length = all.length + 1 := by rw [← hlog]; simp [hpl]
  have hbar : ∀ (q : UnpackPage F D), q.progress = 0 → ∀ j, _ := fun q hq j => unpack_bar paths hpl hsmall q hq j
  rw [hlog] at hbar
  have hmid : ∀ m ∈ (UnpackMsg.changeState (F := F) (D := D) .unpacking :: log.map .updateProgress),
      unpackDef (F := F) (D := D).midMsg m := by
    intro m hm
    rcases List.mem_cons.1 hm with rfl | hm
    · rfl
    · obtain ⟨p, _, rfl⟩ := List.mem_map.1 hm
      rfl
  by_cases hk : (List.map (UiEvent.report (F := F) (D := D) 0) (UnpackMsg.changeState (F := F) (D := D) .unpacking ::
      log.map .updateProgress) ++ [(.ends 0 (.changeState .finished) : UiEvent (UnpackMsg F D) F D)]).length ≤ k
  · rw [List.take_of_length_le hk]
    have h1 := unpack_reports _ _ hh (by rw [hj]; simp) hmid
    have h2 := unpack_ends h1 (by simp [hj]) (st := .finished) (.inl rfl)
    rw [List.append_assoc] at h2
    refine ⟨_, _, h2, rfl, ?_⟩
    simp only [List.foldl_cons, unpackMid_fold]
    obtain ⟨b1, _, b3⟩ := hbar (unpackMid s.page (.changeState .unpacking)) h0 log.length
    rw [List.take_length] at b1 b3
    obtain ⟨b4, b5⟩ := b3 (by omega)
    refine ⟨⟨Nat.le_of_eq (b4.trans b5.symm), percent_le (by omega) (by omega)⟩, fun _ => ⟨b4, b5, ?_, rfl⟩⟩
    show (percent _ _).toNat = _
    generalize (List.foldl (fun p r => p.report r) (unpackMid s.page (.changeState .unpacking)) log) = pg at *
    rw [show pg.progress = pg.count from UInt32.toNat_inj.1 (by omega)]
    split
    · next h0 =>
      rw [show pg.count = 0 from UInt32.toNat_inj.1 (by rw [b5, h0]; rfl)]
      exact percent_zero
    · next h0 =>
      refine percent_full ?_ (by omega)
      intro e
      rw [e] at b5
      exact h0 b5.symm
  · rw [List.take_append_of_le_length (by simp at hk ⊢; omega), ← List.map_take]
    have h1 := unpack_reports ((UnpackMsg.changeState .unpacking :: log.map .updateProgress).take k) _ hh (by rw [hj]; simp)
      (fun m hm => hmid m (List.mem_of_mem_take hm))
    refine ⟨_, _, h1, rfl, ?_, fun hk' => absurd hk' hk⟩
    have hsense : ∀ pg : UnpackPage F D, pg.progress.toNat ≤ all.length ∧ (pg.progress = 0 ∨ pg.count.toNat = all.length) →
        pg.progress.toNat ≤ pg.count.toNat ∧ (percent pg.progress pg.count).toNat ≤ 100 := by
      rintro pg ⟨c1, c2 | c2⟩
      · rw [c2]
        exact ⟨Nat.zero_le _, by rw [percent_zero]; omega⟩
      · exact ⟨by omega, percent_le (by omega) (by omega)⟩
    cases k with
    | zero =>
      have := hbar s.page h0 0
      exact hsense _ ⟨this.1, this.2.1⟩
    | succ k =>
      simp only [List.take_succ_cons, List.foldl_cons, ← List.map_take, unpackMid_fold]
      have := hbar (unpackMid s.page (.changeState .unpacking)) h0 k
      exact hsense _ ⟨this.1, this.2.1⟩

theorem large_bar (n : Nat) (hn : n = 42949673) : ∃ (s : UiSys (UnpackPage Str Str) (Str × Str)) (v : Shown),
    Happens unpackDef (unpackSession.take 4 ++ .report 0 (.updateProgress (.fileCount n)) ::
      List.replicate n (.report 0 (.updateProgress (.fileAdded ['f'] 0)))) (.ok s) ∧
    Shows unpackDef s v ∧ v.done.toNat = n ∧ v.total.toNat = n ∧ v.percent = 0 := by
  have h0 : Happens unpackDef (unpackSession.take 4) (.ok ⟨⟨.unpacking, none, some ['o'], 0, 0, none⟩, none, [(['i'], ['o'])]⟩) := rfl
  have h1 := unpack_reports (.updateProgress (.fileCount n) ::
    (List.replicate n (Progress.fileAdded ['f'] 0)).map .updateProgress) _ h0 (by simp) (by
      intro m hm
      rcases List.mem_cons.1 hm with rfl | hm
      · rfl
      · obtain ⟨p, _, rfl⟩ := List.mem_map.1 hm
        rfl)
  obtain ⟨g1, g2⟩ := unpack_added (List.replicate n ((['f'] : Str), 0))
    (UnpackPage.report ⟨.unpacking, none, some (['o'] : Str), 0, 0, none⟩ (.fileCount n) : UnpackPage Str Str)
    (n := n) (by omega) (by
      rw [List.length_replicate]
      show (0 : UInt32).toNat + n ≤ n
      simp)
  rw [List.map_replicate, List.length_replicate] at g1
  rw [List.map_replicate] at g2
  simp only [List.map_cons, List.map_replicate, List.foldl_cons] at h1
  refine ⟨_, _, h1, rfl, ?_⟩
  have hmf := unpackMid_fold (UnpackPage.report ⟨.unpacking, none, some (['o'] : Str), 0, 0, none⟩ (.fileCount n) :
    UnpackPage Str Str) (List.replicate n (Progress.fileAdded ['f'] 0))
  rw [List.map_replicate] at hmf
  have hstart : unpackMid ⟨.unpacking, none, some (['o'] : Str), 0, 0, none⟩ (.updateProgress (.fileCount n)) =
    (UnpackPage.report ⟨.unpacking, none, some (['o'] : Str), 0, 0, none⟩ (.fileCount n) : UnpackPage Str Str) := rfl
  rw [hstart, hmf]
  generalize (List.foldl (fun p r => p.report r) (UnpackPage.report ⟨.unpacking, none, some (['o'] : Str), 0, 0, none⟩
    (.fileCount n) : UnpackPage Str Str) (List.replicate n (Progress.fileAdded ['f'] 0))) = pg at *
  have hp : pg.progress.toNat = n := by
    rw [g1]
    show (0 : UInt32).toNat + n = n
    simp
  have hc : pg.count.toNat = n := by
    rw [g2]
    show (UInt32.ofNat n).toNat = n
    rw [UInt32.toNat_ofNat']
    exact Nat.mod_eq_of_lt (by omega)
  refine ⟨hp, hc, ?_⟩
  show percent pg.progress pg.count = 0
  rw [show pg.progress = 42949673 from UInt32.toNat_inj.1 (by rw [hp, hn]; rfl),
    show pg.count = 42949673 from UInt32.toNat_inj.1 (by rw [hc, hn]; rfl)]
  decide +kernel

/-- **C104 is false for large trees.**  When 42949673 entries are unpacked, the bar is empty in the end. -/
theorem C104_large_false : ∃ (n : Nat) (s : UiSys (UnpackPage Str Str) (Str × Str)) (v : Shown),
    Happens unpackDef (unpackSession.take 4 ++ .report 0 (.updateProgress (.fileCount n)) ::
      List.replicate n (.report 0 (.updateProgress (.fileAdded ['f'] 0)))) (.ok s) ∧
    Shows unpackDef s v ∧ v.done.toNat = n ∧ v.total.toNat = n ∧ v.percent = 0 :=
  ⟨_, large_bar _ rfl⟩

/-! ## The hypotheses are met -/

/-- The files that can be chosen, `/x.iso` and `/i`, and the folder `/g.1`. -/
def deskFile (b : Bool) : Str := if b then ['/', 'i'] else ['/', 'x', '.', 'i', 's', 'o']

def deskDir (_ : Unit) : Str := ['/', 'g', '.', '1']

/-- The folder `/g.1` is packed into `/x.iso`, through the page: what happens before the output is chosen. -/
def deskSession : List (UiEvent (PackMsg Bool Unit) Bool Unit) :=
  [.click (.inputType .directory), .click (.input .openDirectory), .choose (.dir ()), .click (.output .saveFile)]

/-- Names that can be chosen have a last part. -/
theorem desk_named : (∀ f, (fileName (deskFile f)).isSome) ∧ ∀ d, (fileName (deskDir d)).isSome :=
  ⟨fun b => by cases b <;> decide, fun _ => rfl⟩

theorem twoGames_x : twoGames [['x', '.', 'i', 's', 'o']] = none := by
  apply Classical.byContradiction
  intro hne
  rcases twoGames_dom hne with h | h | h | h | h <;> simp at h

theorem xiso_output : OutputIn ⟨[], fun _ => .none⟩ twoGames (['/'] ++ ['x', '.', 'i', 's', 'o'])
    ['x', '.', 'i', 's', 'o'] [] := by
  refine ⟨⟨['/'], rfl, by unfold HostName; decide, .inr rfl, by decide, .inr ⟨by decide, rfl⟩⟩, ?_, by simp⟩
  rw [List.nil_append, twoGames_x]
  simp

/-- C101 for a directory, and C104 for the page that packs it. -/
example : ∃ img, (desktopPack ⟨[], fun _ => .none⟩ sampleTool (fun fs src => stdFs (listReader
      ([['x', '.', 'i', 's', 'o']] :: gamesDom) fs) fs src) (fun _ => none) twoGames ['/', 'g', '.', '1']
      ['/', 'x', '.', 'i', 's', 'o']).host = twoGames.set [['x', '.', 'i', 's', 'o']] (.file img) ∧
    ImageOf img twoGames [['g', '.', '1']] ∧
    ∃ n, 100 * n < 2 ^ 32 → ∃ s' v, Happens (packDef deskFile deskDir) (deskSession ++ [.choose (.file false)] ++ packEvents
        (desktopPack ⟨[], fun _ => .none⟩ sampleTool (fun fs src => stdFs (listReader
          ([['x', '.', 'i', 's', 'o']] :: gamesDom) fs) fs src) (fun _ => none) twoGames ['/', 'g', '.', '1']
          ['/', 'x', '.', 'i', 's', 'o'])) (.ok s') ∧
      Shows (packDef deskFile deskDir) s' v ∧ ShowsAll v n := by
  have hst : Host.stat ⟨[], fun _ => .none⟩ twoGames ['/', 'g', '.', '1'] = some ([['g', '.', '1']], .dir) := rfl
  obtain ⟨img, hp⟩ := flat_hostPacks (t := sampleTool) (r := listReader ([['x', '.', 'i', 's', 'o']] :: gamesDom)
      (twoGames.set ([] ++ [['x', '.', 'i', 's', 'o']]) (.file []))) (fs := twoGames.set ([] ++ [['x', '.', 'i', 's', 'o']])
      (.file [])) (src := [['g', '.', '1']]) a1_ok rfl (by decide)
  obtain ⟨_, img', h2, h3⟩ := C101_directory_partial
    (R := fun fs => listReader ([['x', '.', 'i', 's', 'o']] :: gamesDom) fs) twoGames_wf twoGames_names xiso_output hst
    (by decide) (listReader_reads (by decide) (by
      intro q hq
      by_cases hx : q = [['x', '.', 'i', 's', 'o']]
      · rw [hx]; exact List.mem_cons_self
      · rw [List.nil_append, set_other hx] at hq
        exact List.mem_cons_of_mem _ (by
          rcases twoGames_dom hq with h | h | h | h | h <;> rw [h] <;> decide))) hp
  obtain ⟨n, h4, h5⟩ := C104_pack_partial (R := fun fs => listReader ([['x', '.', 'i', 's', 'o']] :: gamesDom) fs)
    desk_named.1 desk_named.2 (es := deskSession) (x := .file false) (i := .dir ()) (f := false) rfl rfl xiso_output hst hp
  refine ⟨img', h2, h3, n, fun hs => ?_⟩
  obtain ⟨s', v, g1, g2, _, g4⟩ := h5 hs _
  exact ⟨s', v, by rw [List.take_of_length_le (Nat.le_refl _)] at g1; exact g1, g2, g4 (Nat.le_refl _)⟩

/-- The image `/i` is packed into `/x.iso`, through the page. -/
def deskImageSession : List (UiEvent (PackMsg Bool Unit) Bool Unit) :=
  [.click (.inputType .file), .click (.input .openFile), .choose (.file true), .click (.output .saveFile)]

theorem one_xiso (b : Bytes) : OutputIn ⟨[], fun _ => .none⟩ (oneImage b) ['/', 'x', '.', 'i', 's', 'o']
    ['x', '.', 'i', 's', 'o'] [] := by
  refine ⟨⟨['/'], rfl, by unfold HostName; decide, .inr rfl, rfl, .inr ⟨by decide, rfl⟩⟩, ?_, by simp⟩
  have : oneImage b ([] ++ [['x', '.', 'i', 's', 'o']]) = none := by simp [oneImage]
  rw [this]
  simp

/-- C104 for the page that packs an image, the one of the sample. -/
example : ∃ img tree n, HasEntries tree n ∧ ImageHolds img sampleTool.wfuel tree sampleContent ∧
    (100 * n < 2 ^ 32 → ∃ s' v, Happens (packDef deskFile deskDir) (deskImageSession ++
      [.choose (.file false)] ++ packEvents (desktopPack ⟨[], fun _ => .none⟩ sampleTool
        (fun fs src => stdFs (listReader [] fs) fs src) (fun _ => none) (oneImage img) ['/', 'i']
        ['/', 'x', '.', 'i', 's', 'o'])) (.ok s') ∧ Shows (packDef deskFile deskDir) s' v ∧ ShowsAll v n) := by
  obtain ⟨s1, k1⟩ := sample_packs []
  obtain ⟨tree1, i1, _⟩ := packed_imageHolds sample'_bounded sample'_faithful k1 (wf := 3) sample_scanFuel
  have w1 := packed_works sample'_bounded sample'_faithful k1 sample_tree sample_fits sample_storable sample_few
    sample_latin1 sampleTool sample_scanFuel (by decide)
  obtain ⟨n, h1, h2⟩ := C104_pack_image_partial desk_named.1 desk_named.2 (es := deskImageSession)
    (x := .file false) (i := .file true) (f := false) (h := ⟨[], fun _ => .none⟩) (t := sampleTool)
    (read := fun fs src => stdFs (listReader [] fs) fs src) (faults := fun _ => none) (fs := oneImage s1.dev.img)
    (src := [['i']]) rfl rfl (one_xiso _) rfl (by decide) i1 w1
  refine ⟨s1.dev.img, tree1, n, h1, i1, fun hs => ?_⟩
  obtain ⟨s', v, g1, g2, _, g4⟩ := h2 hs _
  exact ⟨s', v, by rw [List.take_of_length_le (Nat.le_refl _)] at g1; exact g1, g2, g4 (Nat.le_refl _)⟩

/-- C100: a folder that does not exist. -/
example : Host.stat ⟨[], fun _ => .none⟩ twoGames ['/', 'q'] = none ∧
    placeOf ⟨[], fun _ => .none⟩ ['/', 'q'] ≠ placeOf ⟨[], fun _ => .none⟩ ['/', 'x', '.', 'i', 's', 'o'] := ⟨rfl, by decide⟩

/-- C101: an image that is its own output. -/
example : OutputIn ⟨[], fun _ => .none⟩ (twoGames.set [['x', '.', 'i', 's', 'o']] (.file [1])) (['/'] ++ ['x', '.', 'i', 's', 'o'])
      ['x', '.', 'i', 's', 'o'] [] ∧
    Host.stat ⟨[], fun _ => .none⟩ (twoGames.set [['x', '.', 'i', 's', 'o']] (.file [1])) (['/'] ++ ['x', '.', 'i', 's', 'o']) =
      some ([] ++ [['x', '.', 'i', 's', 'o']], .file [1]) := by
  refine ⟨⟨⟨['/'], rfl, by unfold HostName; decide, .inr rfl, by decide, .inr ⟨by decide, rfl⟩⟩, ?_, by simp⟩, rfl⟩
  rw [List.nil_append, set_same]
  simp

/-- C103: the folder `/x` is chosen, and the parts are written beside it. -/
example : ∃ img, StoredParts (desktopCompress ⟨[], fun _ => .none⟩ sampleTool (listReader gamesDom
      (twoGames.set [['x']] .dir)) wholeReads splitCiso (twoGames.set [['x']] .dir) ['/', 'g', '.', '1'] (['/'] ++ ['x'])).2 []
      ['x'] (partsOf splitCiso img) ∧
    (desktopCompress ⟨[], fun _ => .none⟩ sampleTool (listReader gamesDom
      (twoGames.set [['x']] .dir)) wholeReads splitCiso (twoGames.set [['x']] .dir) ['/', 'g', '.', '1'] (['/'] ++ ['x'])).2
      [['x'], partFile ['x'] 1] = none := by
  have hst : Host.stat ⟨[], fun _ => .none⟩ (twoGames.set [['x']] .dir) ['/', 'g', '.', '1'] =
    some ([['g', '.', '1']], .dir) := rfl
  have hname : HostName ['x'] := by unfold HostName; decide
  have hstem : HasStem ['x'] ['x'] := .inr ⟨rfl, by decide⟩
  have hd : PrefixNames ⟨[], fun _ => .none⟩ (twoGames.set [['x']] .dir) ['/'] [] :=
    ⟨.inr rfl, by decide, .inr ⟨by decide, rfl⟩⟩
  have hfresh : ∀ i, (twoGames.set [['x']] .dir) ([] ++ [partFile ['x'] i]) = none := by
    intro i
    rw [set_other (by simp [partFile])]
    apply Classical.byContradiction
    intro hne
    rcases twoGames_dom hne with h | h | h | h | h <;> simp [partFile] at h
  have hno : NoPartInSource (twoGames.set [['x']] .dir) [['g', '.', '1']] [] ['x'] := by
    intro i x hx
    rw [hfresh] at hx
    cases hx
  have hpw : PartsWritable ⟨[], fun _ => .none⟩ (twoGames.set [['x']] .dir) [] ['x'] :=
    fun i => ⟨rfl, by rw [hfresh]; simp⟩
  obtain ⟨img, hp⟩ := flat_hostPacks (t := sampleTool) (r := listReader gamesDom (twoGames.set [['x']] .dir))
    (fs := twoGames.set [['x']] .dir) (src := [['g', '.', '1']]) a1_ok rfl (by decide)
  have ho : OutputAt ⟨[], fun _ => .none⟩ (twoGames.set [['x']] .dir) (['/'] ++ ['x']) ['x'] ['x'] [] :=
    ⟨['/'], rfl, hname, hstem, hd⟩
  have h1 := C103_parts_beside_partial (most := wholeReads) (c := splitCiso)
    (r := listReader gamesDom (twoGames.set [['x']] .dir)) (by intro b; simp [listReader])
    wholeReads_ok split_works split_numbered hst ho hno hpw hp
  refine ⟨img, h1.2.1, ?_⟩
  generalize hq : [['x'], partFile ['x'] 1] = q
  rw [C103_in_folder_false split_numbered ho (set_same _ _ _) q ⟨[partFile ['x'] 1], hq⟩, set_other (by rw [← hq]; simp), ← hq]
  apply Classical.byContradiction
  intro hne
  rcases twoGames_dom hne with h | h | h | h | h <;> simp [partFile] at h

end Xdvdfs.Props
