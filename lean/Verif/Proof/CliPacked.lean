import Verif.Proof.Cli
import Verif.Proof.FuseImg

/-! # The command line tool on packed images: lemmas -/

namespace Xdvdfs

open TabWriter Spec Props

theorem imgTreeLoop_indep {σ τ : Type} (wf : Nat) : ∀ (fuel : Nat) (fs : ImgFs) (stack : List Path)
    (out : List (Path × List FileEntry)) (s : PackState σ) (s' : PackState τ),
    (imgTreeLoop wf fuel fs stack out s).1 = (imgTreeLoop wf fuel fs stack out s').1 := by
  intro fuel
  induction fuel with
  | zero =>
    intro fs stack out s s'
    cases stack with
    | nil => rfl
    | cons d ds => rfl
  | succ fuel ih =>
    intro fs stack out s s'
    cases stack with
    | nil => rfl
    | cons d ds =>
      simp only [imgTreeLoop, PM.bind_def, PM.lift]
      cases hr : fs.readDir wf d with
      | ok x => simp only [PM.report]; exact ih _ _ _ _ _
      | err e => rfl
      | panic => rfl
      | hang => rfl

theorem repackImage_of_scan {copier : Copier} {faults : Faults} {wf fuel : Nat} {fs fs' : ImgFs}
    (hc : fs.cache = Trie.empty) {s s1 : PackState ImgFile} {D : List (Path × List FileEntry)}
    (hx : imgTreeLoop wf fuel fs [[]] [] s = (.ok (D, fs'), s1)) :
    repackImage copier faults wf fuel fs s = createImage (fileEnv (pureSource wf copier fs') faults) fuel s := by
  have hinv : CacheInv fs.dev wf fs.vol.root fs.cache := by rw [hc]; exact cacheInv_empty _ _ _
  obtain ⟨_, h2⟩ := imgTreeLoop_spec fuel fs [[]] [] s hinv (by simp)
  rw [hx] at h2
  obtain ⟨j1, j2, _⟩ := h2 D fs' rfl
  have hdt := j1 (fileEnv (pureSource wf copier fs') faults) (by
    simp only [fileEnv, pureSource]; rw [j2.dev, j2.vol])
  simp only [repackImage, createImage, dirTree, PM.bind_def, hdt, hx]
  exact (congrFun (createFrom_congr (fileEnv (fs'.source (fun _ => .err .other) copier) faults)
    (imgReadDir fs'.dev wf fs'.vol.root) D) s1).symm

theorem repackBuffered_of_scan {copier : Copier} {pol : BufPolicy} {faults : Faults} {wf fuel : Nat} {fs fs' : ImgFs}
    (hc : fs.cache = Trie.empty) {s s1 : PackState BufFile} {D : List (Path × List FileEntry)}
    (hx : imgTreeLoop wf fuel fs [[]] [] s = (.ok (D, fs'), s1)) :
    repackBuffered copier pol faults wf fuel fs s = createImage (bufEnv (pureSource wf copier fs') pol faults) fuel s := by
  have hinv : CacheInv fs.dev wf fs.vol.root fs.cache := by rw [hc]; exact cacheInv_empty _ _ _
  obtain ⟨_, h2⟩ := imgTreeLoop_spec fuel fs [[]] [] s hinv (by simp)
  rw [hx] at h2
  obtain ⟨j1, j2, _⟩ := h2 D fs' rfl
  have hdt := j1 (bufEnv (pureSource wf copier fs') pol faults) (by
    simp only [bufEnv, pureSource]; rw [j2.dev, j2.vol])
  simp only [repackBuffered, createImage, dirTree, PM.bind_def, hdt, hx]
  exact (congrFun (createFrom_congr (bufEnv (fs'.source (fun _ => .err .other) copier) pol faults)
    (imgReadDir fs'.dev wf fs'.vol.root) D) s1).symm

/-- Without write failures, repacking through the buffer and repacking to a plain file have the same result, and when
they succeed, they pack the same source. -/
theorem repackBuffered_same {copier : Copier} {pol : BufPolicy} {wf fuel : Nat} {fs : ImgFs} (hc : fs.cache = Trie.empty)
    (h : (repackImage copier (fun _ => none) wf fuel fs ⟨⟨[], []⟩, []⟩).1 = .ok ()) :
    ∃ fs', (∀ faults, repackBuffered copier pol faults wf fuel fs ⟨⟨[], 0, [], 0⟩, []⟩ =
        createImage (bufEnv (pureSource wf copier fs') pol faults) fuel ⟨⟨[], 0, [], 0⟩, []⟩) ∧
      repackImage copier (fun _ => none) wf fuel fs ⟨⟨[], []⟩, []⟩ =
        createImage (fileEnv (pureSource wf copier fs') (fun _ => none)) fuel ⟨⟨[], []⟩, []⟩ ∧
      After wf fs fs' := by
  have hi := imgTreeLoop_indep wf fuel fs [[]] [] (⟨⟨[], []⟩, []⟩ : PackState ImgFile)
    (⟨⟨[], 0, [], 0⟩, []⟩ : PackState BufFile)
  have hinv : CacheInv fs.dev wf fs.vol.root fs.cache := by rw [hc]; exact cacheInv_empty _ _ _
  obtain ⟨_, hsp⟩ := imgTreeLoop_spec fuel fs [[]] [] (⟨⟨[], []⟩, []⟩ : PackState ImgFile) hinv (by simp)
  rcases h1 : imgTreeLoop wf fuel fs [[]] [] (⟨⟨[], []⟩, []⟩ : PackState ImgFile) with ⟨r1, s1⟩
  rcases h2 : imgTreeLoop wf fuel fs [[]] [] (⟨⟨[], 0, [], 0⟩, []⟩ : PackState BufFile) with ⟨r2, s2⟩
  rw [h1] at hi hsp
  rw [h2] at hi
  simp only at hi
  subst hi
  cases r1 with
  | ok x =>
    obtain ⟨D, fs'⟩ := x
    exact ⟨fs', fun faults => repackBuffered_of_scan hc h2, repackImage_of_scan hc h1, (hsp D fs' rfl).2.1⟩
  | err e => simp only [repackImage, PM.bind_def, h1] at h; cases h
  | panic => simp only [repackImage, PM.bind_def, h1] at h; cases h
  | hang => simp only [repackImage, PM.bind_def, h1] at h; cases h

theorem repackBuffered_works {copier : Copier} {pol : BufPolicy} {wf fuel : Nat} {fs : ImgFs} (hc : fs.cache = Trie.empty)
    (h : (repackImage copier (fun _ => none) wf fuel fs ⟨⟨[], []⟩, []⟩).1 = .ok ()) :
    (repackBuffered copier pol (fun _ => none) wf fuel fs ⟨⟨[], 0, [], 0⟩, []⟩).1 = .ok () := by
  obtain ⟨fs', h1, h2, _⟩ := repackBuffered_same (pol := pol) hc h
  rw [h1]
  have := (C63_buffer_unnoticed (pureSource wf copier fs') pol fuel).1
  rw [← h2, h] at this
  exact this

/-! ## Packed images -/

/-- The image of a packed source, as the tool opens it. -/
theorem packed_open {src : SourceFs} {content : Path → Bytes} (hb : Bounded src)
    (hf : FaithfulTo src content) {faults : Faults} {fuel : Nat} {img0 : Bytes} {s1 : PackState ImgFile}
    (h1 : createImage (fileEnv src faults) fuel ⟨⟨img0, []⟩, []⟩ = (.ok (), s1)) :
    ∃ vol, offsetNew (fileDev s1.dev.img) = .ok 0 ∧
      readVolume (offsetDev (fileDev s1.dev.img) 0) = .ok vol ∧
      ∀ wf, ScanFuel src.readDir wf →
        SameTree src.readDir (imgReadDir (offsetDev (fileDev s1.dev.img) 0) wf vol.root) ∧
        ImgContent (offsetDev (fileDev s1.dev.img) 0) wf vol.root content := by
  obtain ⟨M, Loc, l0, hP⟩ := pack_packed hb hf h1
  have hv := hP.volume
  refine ⟨_, offsetNew_zero hv, by rw [(offsetDev_zero _).readVolume]; exact hv, ?_⟩
  intro wf hwf
  have hI := hP.image.agree (offsetDev_zero _)
  obtain ⟨hs, hk⟩ := hI.sameTree hP.distinct hP.root hP.rootDir hwf hP.listable
  refine ⟨hs, ?_⟩
  intro p ds d hp hds hd hf
  obtain ⟨lst, ds', k1, k2, k3, k4⟩ := hk p ((hs.dirs p).2 hp)
  rw [show imgDirents (offsetDev (fileDev s1.dev.img) 0) wf (regionOf l0) p = .ok ds from hds] at k2; cases k2
  have hl := k4 d hd
  obtain ⟨g1, g2⟩ := hI.files _ _ hl hf
  obtain ⟨s1, s2⟩ := hI.small _ _ hl
  exact readDataAll_holds (regionOf_summary d).symm s1 s2 g1 g2

theorem packed_imageHolds {src : SourceFs} {content : Path → Bytes} (hb : Bounded src)
    (hf : FaithfulTo src content) {faults : Faults} {fuel : Nat} {img0 : Bytes} {s1 : PackState ImgFile}
    (h1 : createImage (fileEnv src faults) fuel ⟨⟨img0, []⟩, []⟩ = (.ok (), s1)) {wf : Nat}
    (hwf : ScanFuel src.readDir wf) :
    ∃ tree, ImageHolds s1.dev.img wf tree content ∧
      ∀ out, HoldsTree (fileDev out) tree content → HoldsTree (fileDev out) src.readDir content := by
  obtain ⟨vol, k1, k2, k3⟩ := packed_open hb hf h1
  obtain ⟨k4, k5⟩ := k3 wf hwf
  refine ⟨_, ⟨0, vol, k1, k2, rfl, k5⟩, ?_⟩
  intro out hT
  obtain ⟨M, Loc, l0, hP⟩ := pack_packed hb hf h1
  obtain ⟨vol, _, _, _, _, all, a1, a2, _⟩ := pack_success hb hf h1
  exact HoldsTree.transfer k4 hP.listable hP.distinct a1 a2 hT

/-- Without write failures the tool repacks the image of a packed source. -/
theorem packed_works {src : SourceFs} {content : Path → Bytes} (hb : Bounded src)
    (hf : FaithfulTo src content) {faults : Faults} {fuel : Nat} {img0 : Bytes} {s1 : PackState ImgFile}
    (h1 : createImage (fileEnv src faults) fuel ⟨⟨img0, []⟩, []⟩ = (.ok (), s1))
    {tree : List (Path × List FileEntry)} (ht : TreeOf src.readDir tree) (hF : Fits tree)
    (hS : ∀ x ∈ tree, StorableListing x.2) (hK : ∀ x ∈ tree, FewEntries x.2)
    (hlat : ∀ x ∈ tree, ∀ e ∈ x.2, Latin1 e.name) (t : Tool) (hwf : ScanFuel src.readDir t.wfuel)
    (hfu : tree.length ≤ t.fuel) :
    (packImage t s1.dev.img (fun _ => none)).1 = .ok () := by
  obtain ⟨vol, k1, k2, k3⟩ := packed_open hb hf h1
  obtain ⟨hs, k5⟩ := k3 t.wfuel hwf
  obtain ⟨M, Loc, l0, hP⟩ := pack_packed hb hf h1
  obtain ⟨tree', t1, t2, t3, t4⟩ := hs.tree hP.listable ht
  unfold packImage
  rw [packImageOpen_eq k1 k2]
  simp only
  refine repackBuffered_works rfl ?_
  refine repack_works (content := content) rfl ?_ k5 ?_ t1 ⟨by rw [t3]; exact hF.1, ?_⟩ ?_ ?_ ?_ (by rw [t2]; exact hfu) _
  · intro off n b _
    exact ⟨_, rfl⟩
  · intro p hp
    obtain ⟨l, h1⟩ := hP.listable p ((hs.dirs p).2 hp)
    obtain ⟨l', h2, _⟩ := hs.lists p l ((hs.dirs p).2 hp) h1
    exact ⟨l', h2⟩
  · intro x hx
    obtain ⟨y, hy, hp⟩ := t4 x hx
    have := hp.length_eq
    simp only [List.length_map] at this
    rw [← this]
    exact hF.2 y hy
  · intro x hx
    obtain ⟨y, hy, hp⟩ := t4 x hx
    exact sig_storable hp (hS y hy)
  · intro x hx
    obtain ⟨y, hy, hp⟩ := t4 x hx
    exact few_within (sig_few hp (hK y hy))
  · intro x hx e he
    obtain ⟨y, hy, hp⟩ := t4 x hx
    obtain ⟨e', he', hn, _⟩ := sig_mem hp.symm he
    rw [← hn]
    exact hlat y hy e' he'

/-- When the tool can repack an image, there is a write failure that makes it report success although the new image is
not complete. -/
theorem packImage_loss {t : Tool} (ht : ∀ b, (t.split b).flatten = b) {img : Bytes}
    {tree : Path → Res (List FileEntry)} {content : Path → Bytes} (hi : ImageHolds img t.wfuel tree content)
    (h : (packImage t img (fun _ => none)).1 = .ok ()) :
    ∃ faults, (packImage t img faults).1 = .ok () ∧
      ¬ (HoldsTree (fileDev (packImage t img faults).2.img) tree content ∧
        (packImage t img faults).2.img.length % 65536 = 0) := by
  obtain ⟨base, vol, h1, h2, rfl, h4⟩ := hi
  unfold packImage at h ⊢
  simp only [packImageOpen_eq h1 h2] at h ⊢
  let fs : ImgFs := ⟨offsetDev (fileDev img) base, vol, Trie.empty⟩
  let copier := stdIoCopier img base t.split
  have hinv : CacheInv fs.dev t.wfuel fs.vol.root fs.cache := cacheInv_empty _ _ _
  obtain ⟨_, hsp⟩ := imgTreeLoop_spec t.fuel fs [[]] [] (⟨⟨[], 0, [], 0⟩, []⟩ : PackState BufFile) hinv (by simp)
  rcases hx : imgTreeLoop t.wfuel t.fuel fs [[]] [] (⟨⟨[], 0, [], 0⟩, []⟩ : PackState BufFile) with ⟨r1, s1⟩
  cases r1 with
  | ok x =>
    obtain ⟨D, fs'⟩ := x
    rw [hx] at hsp
    obtain ⟨_, hA, _⟩ := hsp D fs' rfl
    have hall : ∀ faults, repackBuffered copier (cliPolicy t.early) faults t.wfuel t.fuel fs ⟨⟨[], 0, [], 0⟩, []⟩ =
        createImage (bufEnv (pureSource t.wfuel copier fs') (cliPolicy t.early) faults) t.fuel ⟨⟨[], 0, [], 0⟩, []⟩ :=
      fun faults => repackBuffered_of_scan rfl hx
    have hfile := (C63_buffer_unnoticed (pureSource t.wfuel copier fs') (cliPolicy t.early) t.fuel).1
    rw [show (packFile (pureSource t.wfuel copier fs') (cliPolicy t.early) (fun _ => none) t.fuel).1 =
      (createImage (bufEnv (pureSource t.wfuel copier fs') (cliPolicy t.early) (fun _ => none)) t.fuel
        ⟨⟨[], 0, [], 0⟩, []⟩).1 from rfl, ← hall, show (repackBuffered copier (cliPolicy t.early) (fun _ => none)
          t.wfuel t.fuel fs ⟨⟨[], 0, [], 0⟩, []⟩).1 = .ok () from h] at hfile
    rcases hcf : createImage (fileEnv (pureSource t.wfuel copier fs') (fun _ => none)) t.fuel ⟨⟨[], []⟩, []⟩ with ⟨r, s'⟩
    rw [hcf] at hfile
    simp only at hfile
    subst hfile
    obtain ⟨faults, b, g1, g2⟩ := C63_complete_false (content := content)
      (pureSource_bounded (dev := fs.dev) (stdIoCopier_copies_offset ht))
      (cliPolicy t.early) (by show 65536 ≤ 1024 * 1024; omega) hcf
    have hrd : (pureSource t.wfuel copier fs').readDir = imgReadDir fs.dev t.wfuel fs.vol.root := by
      simp only [pureSource]; rw [hA.dev, hA.vol]
    rw [hrd] at g2
    obtain ⟨s2, g3, g4⟩ := packFile_eq g1
    refine ⟨faults, ?_⟩
    have hb := hall faults
    rw [g3] at hb
    have e1 : (repackBuffered (stdIoCopier img base t.split) (cliPolicy t.early) faults t.wfuel t.fuel
      ⟨offsetDev (fileDev img) base, vol, Trie.empty⟩ ⟨⟨[], 0, [], 0⟩, []⟩) = (.ok (), s2) := hb
    rw [e1]
    refine ⟨rfl, ?_⟩
    simp only
    rw [← g4]
    exact g2
  | err e => simp only [repackBuffered, PM.bind_def, fs, hx] at h; cases h
  | panic => simp only [repackBuffered, PM.bind_def, fs, hx] at h; cases h
  | hang => simp only [repackBuffered, PM.bind_def, fs, hx] at h; cases h

/-! ## Runs that succeed -/

/-- A rewrite gets as far as creating its output. -/
structure Opens (dir : Option HostPath) (fs : HostFs) (src : HostPath) (img : Bytes) (fs1 fs2 : HostFs) : Prop where
  file : fs src = some (.file img)
  renamed : fs.rename src (oldPath src) = .ok fs1
  opened : packOpen fs1 (oldPath src) (rewriteDest dir src) = .ok fs2

theorem Opens.pack {dir : Option HostPath} {fs fs1 fs2 : HostFs} {src : HostPath} {img : Bytes}
    (h : Opens dir fs src img fs1 fs2) {t : Tool} {faults : Faults} (hp : (packImage t img faults).1 = .ok ()) :
    (packPathImage t faults fs1 (oldPath src) (rewriteDest dir src)).2 =
      .ok (fs2.set (rewriteDest dir src) (.file (packImage t img faults).2.img)) := by
  obtain ⟨r1, _, _⟩ := rename_ok h.renamed
  obtain ⟨e2, h2, _, _⟩ := packOpen_ok h.opened
  have hne : oldPath src ≠ rewriteDest dir src := fun he => h2 (by rw [he]; exact List.prefix_refl _)
  have hs : fs2 (oldPath src) = some (.file img) := by rw [e2, set_ne hne, r1, h.file]
  unfold packPathImage
  simp only [h.opened, hs, hp]

theorem Opens.run {dir : Option HostPath} {fs fs1 fs2 : HostFs} {src : HostPath} {img : Bytes}
    (h : Opens dir fs src img fs1 fs2) {t : Tool} {faults : Faults} (hp : (packImage t img faults).1 = .ok ())
    (delete : Bool) :
    (rewriteOne t dir delete faults fs src).2 = .ok (if delete then
      (fs2.set (rewriteDest dir src) (.file (packImage t img faults).2.img)).remove (oldPath src)
      else fs2.set (rewriteDest dir src) (.file (packImage t img faults).2.img)) := by
  unfold rewriteOne
  simp only [h.file, h.renamed, h.pack hp]
  cases delete <;> rfl

theorem rewriteOne_ok {t : Tool} {dir : Option HostPath} {delete : Bool} {faults : Faults} {fs st : HostFs}
    {src : HostPath} (h : (rewriteOne t dir delete faults fs src).2 = .ok st) :
    ∃ img fs1 fs2, Opens dir fs src img fs1 fs2 ∧ (packImage t img faults).1 = .ok () := by
  unfold rewriteOne at h
  cases hs : fs src with
  | none => simp [hs] at h
  | some n =>
    cases n with
    | dir => simp [hs] at h
    | file img =>
      rw [hs] at h
      simp only at h
      cases hr : fs.rename src (oldPath src) with
      | err e => simp [hr] at h
      | panic => simp [hr] at h
      | hang => simp [hr] at h
      | ok fs1 =>
        rw [hr] at h
        simp only at h
        obtain ⟨r1, _, _⟩ := rename_ok hr
        have hok : ∃ fs3, (packPathImage t faults fs1 (oldPath src) (rewriteDest dir src)).2 = .ok fs3 := by
          cases hp : (packPathImage t faults fs1 (oldPath src) (rewriteDest dir src)).2 with
          | ok fs3 => exact ⟨fs3, rfl⟩
          | err e => simp [hp] at h
          | panic => simp [hp] at h
          | hang => simp [hp] at h
        obtain ⟨fs3, h3⟩ := hok
        obtain ⟨img', g1, g2, _⟩ := packPathImage_seen.2 fs3 h3
        rw [r1, hs] at g1
        cases g1
        cases ho : packOpen fs1 (oldPath src) (rewriteDest dir src) with
        | ok fs2 => exact ⟨img, fs1, fs2, ⟨hs, hr, ho⟩, g2⟩
        | err e => simp [packPathImage, ho] at h3
        | panic => simp [packPathImage, ho] at h3
        | hang => simp [packPathImage, ho] at h3

/-- Without write failures nothing is lost when the output is closed. -/
theorem closesCleanly_none (t : Tool) : ClosesCleanly t (fun _ => none) := by
  intro img _
  show (flushBuf (fun _ => none) _).2.buf = []
  unfold flushBuf
  split
  · assumption
  · rfl

/-- When a rewrite gets as far as creating its output. -/
theorem opens_of {dir : Option HostPath} {fs : HostFs} {src : HostPath} {img : Bytes} (h : fs src = some (.file img))
    (h1 : fs (oldPath src) ≠ some .dir) (h2 : fs (oldPath src).dropLast = some .dir)
    (h3 : ¬ oldPath src <+: rewriteDest dir src) (h4 : fs (rewriteDest dir src) ≠ some .dir)
    (h5 : fs (rewriteDest dir src).dropLast = some .dir) : ∃ fs1 fs2, Opens dir fs src img fs1 fs2 := by
  have hr : fs.rename src (oldPath src) =
      .ok (fun q => if q = oldPath src then some (.file img) else if q = src then none else fs q) := by
    unfold HostFs.rename
    rw [h]
    simp [h1, h2]
  refine ⟨_, HostFs.set (fun q => if q = oldPath src then some (.file img) else if q = src then none else fs q)
      (rewriteDest dir src) (.file []), ⟨h, hr, ?_⟩⟩
  · have a1 : rewriteDest dir src ≠ oldPath src := fun he => h3 (by rw [he]; exact List.prefix_refl _)
    have a2 : (rewriteDest dir src).dropLast ≠ oldPath src :=
      fun he => h3 (by rw [← he]; exact List.dropLast_prefix _)
    have a3 : (rewriteDest dir src).dropLast ≠ src := fun he => by rw [he, h] at h5; cases h5
    have a4 : (oldPath src).isPrefixOf (rewriteDest dir src) = false := by
      rw [Bool.eq_false_iff]
      intro he
      exact h3 (List.isPrefixOf_iff_prefix.1 he)
    unfold packOpen
    simp only [if_true, if_neg a1, if_neg a2, if_neg a3, a4, a1, and_false, if_false, h5, Bool.false_eq_true]
    by_cases hs : rewriteDest dir src = src
    · simp [hs]
    · simp [hs, h4]

/-- The files after a successful rewrite of one image. -/
theorem Opens.result {dir : Option HostPath} {fs fs1 fs2 : HostFs} {src : HostPath} {img : Bytes}
    (h : Opens dir fs src img fs1 fs2) {t : Tool} {faults : Faults} (hp : (packImage t img faults).1 = .ok ())
    (delete : Bool) :
    (rewriteOne t dir delete faults fs src).2 = .ok (fun q =>
      if q = oldPath src then (if delete then none else some (.file img))
      else if q = rewriteDest dir src then some (.file (packImage t img faults).2.img)
      else if q = src then none else fs q) := by
  rw [h.run hp]
  obtain ⟨e2, hnp, _, _⟩ := packOpen_ok h.opened
  obtain ⟨r1, r2, r3⟩ := rename_ok h.renamed
  have hne : oldPath src ≠ rewriteDest dir src := fun he => hnp (by rw [he]; exact List.prefix_refl _)
  congr 1
  funext q
  have key : (fs2.set (rewriteDest dir src) (.file (packImage t img faults).2.img)) q =
      if q = rewriteDest dir src then some (.file (packImage t img faults).2.img) else
      if q = oldPath src then some (.file img) else if q = src then none else fs q := by
    subst e2
    simp only [HostFs.set]
    by_cases h1 : q = rewriteDest dir src
    · simp [h1]
    · simp only [if_neg h1]
      by_cases h2 : q = oldPath src
      · rw [if_pos h2, h2, r1, h.file]
      · rw [if_neg h2]
        by_cases h3 : q = src
        · rw [if_pos h3, h3]; exact r2 (fun he => h2 (by rw [h3]; exact he))
        · rw [if_neg h3]; exact r3 q h3 h2
  cases delete with
  | true =>
    simp only [if_true, HostFs.remove]
    split
    · rfl
    · rw [key]; next h => simp [h]
  | false =>
    simp only [Bool.false_eq_true, if_false]
    rw [key]
    by_cases h2 : q = oldPath src
    · rw [if_pos h2, if_pos h2, if_neg (by rw [h2]; exact hne)]
    · simp [h2]

theorem rewriteAll_one {t : Tool} {dir : Option HostPath} {delete : Bool} {a : HostPath} {f : Faults}
    {fs fs1 : HostFs} (h1 : (rewriteOne t dir delete f fs a).2 = .ok fs1) :
    (rewriteAll t dir delete [(a, f)] fs).2 = .ok fs1 := by
  simp only [rewriteAll, h1]

theorem rewriteAll_two {t : Tool} {dir : Option HostPath} {delete : Bool} {a b : HostPath} {f g : Faults}
    {fs fs1 fs2 : HostFs} (h1 : (rewriteOne t dir delete f fs a).2 = .ok fs1)
    (h2 : (rewriteOne t dir delete g fs1 b).2 = .ok fs2) :
    (rewriteAll t dir delete [(a, f), (b, g)] fs).2 = .ok fs2 := by
  simp only [rewriteAll, h1, h2]

/-- After a successful rewrite of images that do not get in each other's way, each image was rewritten. -/
theorem rewriteAll_done {t : Tool} {dir : Option HostPath} {delete : Bool} {src : HostPath} {img : Bytes}
    {faults : Faults} : ∀ (images : List (HostPath × Faults)) (fs : HostFs), fs src = some (.file img) →
    (src, faults) ∈ images → images.Pairwise (fun a b => Separate dir a.1 b.1) →
    ∀ st, (rewriteAll t dir delete images fs).2 = .ok st →
    ∃ fs' st', fs' src = some (.file img) ∧ (rewriteOne t dir delete faults fs' src).2 = .ok st' ∧
      ∀ q ∈ touched dir src, st q = st' q := by
  intro images
  induction images with
  | nil => intro fs _ h; cases h
  | cons x images ih =>
    intro fs hs hmem hsep st h
    obtain ⟨s1, f1⟩ := x
    simp only [List.pairwise_cons] at hsep
    simp only [rewriteAll] at h
    by_cases hx : (src, faults) = (s1, f1)
    · cases hx
      have hrest : ∀ y ∈ images, ∀ q ∈ touched dir src, q ∉ touched dir y.1 := fun y hy => hsep.1 y hy
      cases hr : (rewriteOne t dir delete faults fs src).2 with
      | ok fs' =>
        rw [hr] at h
        exact ⟨fs, fs', hs, hr, fun q hq => rewriteAll_frame images fs' (fun y hy => hrest y hy q hq) (.inr h)⟩
      | err e => rw [hr] at h; cases h
      | panic => rw [hr] at h; cases h
      | hang => rw [hr] at h; cases h
    · have hmem' : (src, faults) ∈ images := by
        rcases List.mem_cons.1 hmem with h | h
        · exact absurd h hx
        · exact h
      have hns : ∀ q ∈ touched dir src, q ∉ touched dir s1 := fun q hq hq' => hsep.1 _ hmem' q hq' hq
      cases hr : (rewriteOne t dir delete f1 fs s1).2 with
      | ok fs' =>
        rw [hr] at h
        have hs' : fs' src = some (.file img) := by
          rw [rewriteOne_frame (hns src (by simp [touched])) (.inr hr), hs]
        exact ih fs' hs' hmem' hsep.2 st h
      | err e => rw [hr] at h; cases h
      | panic => rw [hr] at h; cases h
      | hang => rw [hr] at h; cases h

/-- Nothing below a directory given with `-d` is written. -/
theorem rewriteOne_below {t : Tool} {d : HostPath} {delete : Bool} {faults : Faults} {fs : HostFs} {src : HostPath}
    (hd : d ≠ []) (hdir : fs d = some .dir) (hs : d ≠ src) (ho : d ≠ oldPath src) {q : HostPath} (hq : d <+: q) (q1 : q ≠ src)
    (q2 : q ≠ oldPath src) {st : HostFs}
    (h : st ∈ (rewriteOne t (some d) delete faults fs src).1 ∨
      (rewriteOne t (some d) delete faults fs src).2 = .ok st) : st q = fs q := by
  by_cases hq3 : q = rewriteDest (some d) src
  · have hd3 : rewriteDest (some d) src = d := by
      cases hl : src.getLast? with
      | none => simp [rewriteDest, hl]
      | some name =>
        simp only [rewriteDest, hl] at hq3 ⊢
        rw [hq3] at hq
        have hlen : (d.dropLast ++ [name]).length = d.length := by
          have := List.length_pos_iff.2 hd
          simp; omega
        exact (hq.eq_of_length hlen.symm).symm
    rw [hd3] at hq3
    subst hq3
    unfold rewriteOne at h
    split at h
    next img himg =>
      split at h
      next fs1 hr =>
        have hf : fs1 q = some .dir := by rw [(rename_ok hr).2.2 q q1 q2, hdir]
        have hp : packOpen fs1 (oldPath src) q = .err .io ∨ packOpen fs1 (oldPath src) q = .err .other := by
          unfold packOpen
          split
          · exact .inl rfl
          · split
            · exact .inr rfl
            split
            · exact .inr rfl
            rw [if_pos (.inl hf)]
            exact .inl rfl
        have hpp : ∃ e, packPathImage t faults fs1 (oldPath src) q = ([], .err e) := by
          unfold packPathImage
          rcases hp with hp | hp <;> exact ⟨_, by rw [hp]⟩
        obtain ⟨e, hpp⟩ := hpp
        rw [hd3, hpp] at h
        simp only [List.mem_cons, List.not_mem_nil, or_false, reduceCtorEq] at h
        subst h
        rw [hf, hdir]
      all_goals simp at h
    · simp at h
  · exact rewriteOne_frame (by simp [touched, q1, q2, hq3]) h

theorem rewriteAll_below {t : Tool} {d : HostPath} {delete : Bool} (hd : d ≠ []) {q : HostPath} (hq : d <+: q) :
    ∀ (images : List (HostPath × Faults)) (fs : HostFs), fs d = some .dir →
    (∀ x ∈ images, d ≠ x.1 ∧ d ≠ oldPath x.1 ∧ q ≠ x.1 ∧ q ≠ oldPath x.1) → ∀ {st : HostFs},
    st ∈ (rewriteAll t (some d) delete images fs).1 ∨ (rewriteAll t (some d) delete images fs).2 = .ok st →
    st q = fs q := by
  intro images
  induction images with
  | nil => intro fs _ _ st h; simp [rewriteAll] at h; rw [h]
  | cons x images ih =>
    intro fs hdir hx st h
    obtain ⟨src, faults⟩ := x
    obtain ⟨x1, x2, x3, x4⟩ := hx _ (List.mem_cons_self ..)
    have hone : ∀ st, st ∈ (rewriteOne t (some d) delete faults fs src).1 ∨
      (rewriteOne t (some d) delete faults fs src).2 = .ok st → st q = fs q :=
      fun st h => rewriteOne_below hd hdir x1 x2 hq x3 x4 h
    simp only [rewriteAll] at h
    cases hr : (rewriteOne t (some d) delete faults fs src).2 with
    | ok fs' =>
      rw [hr] at h
      simp only [List.mem_append] at h
      have hq' := hone fs' (.inr hr)
      have hd' : fs' d = some .dir := by
        rw [rewriteOne_below hd hdir x1 x2 (List.prefix_refl d) x1 x2 (.inr hr), hdir]
      have hrest := ih fs' hd' (fun y hy => hx y (List.mem_cons_of_mem _ hy)) (st := st)
      rcases h with (h | h) | h
      · exact hone st (.inl h)
      · rw [hrest (.inl h), hq']
      · rw [hrest (.inr h), hq']
    | err e => rw [hr] at h; simp only [reduceCtorEq, or_false] at h; exact hone st (.inl h)
    | panic => rw [hr] at h; simp only [reduceCtorEq, or_false] at h; exact hone st (.inl h)
    | hang => rw [hr] at h; simp only [reduceCtorEq, or_false] at h; exact hone st (.inl h)

/-- An image holds only one tree: the number of entries is determined. -/
theorem holdsTree_length {dev : Dev} {r1 r2 : Path → Res (List FileEntry)} {c1 c2 : Path → Bytes}
    (h1 : HoldsTree dev r1 c1) (h2 : HoldsTree dev r2 c2) :
    ∃ a1 a2 : List (Path × FileEntry), a1.Nodup ∧ a2.Nodup ∧ (∀ p e, (p, e) ∈ a1 ↔ EntryIn r1 p e) ∧
      (∀ p e, (p, e) ∈ a2 ↔ EntryIn r2 p e) ∧ a1.length = a2.length := by
  obtain ⟨v1, hv1, _, _, _, a1, n1, m1, l1, f1, p1⟩ := h1
  obtain ⟨v2, hv2, _, _, _, a2, n2, m2, l2, f2, p2⟩ := h2
  rw [hv1] at hv2
  cases hv2
  refine ⟨a1, a2, n1, n2, m1, m2, ?_⟩
  have g1 := f1 (a1.length + a2.length + 2) (by omega)
  have g2 := f2 (a1.length + a2.length + 2) (by omega)
  rw [g1] at g2
  cases g2
  have q1 := p1.length_eq
  have q2 := p2.length_eq
  simp only [List.length_map] at q1 q2
  omega

end Xdvdfs
