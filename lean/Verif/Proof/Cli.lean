import Verif.Spec.Cli
import Verif.Proof.ImgFs
import Verif.Proof.Copier
import Verif.Props.BufWriter
import Verif.Props.Repack

/-! # The command line tool: lemmas -/

namespace Xdvdfs

open TabWriter Spec Props

/-! ## Repacking through the output buffer -/

theorem repackBuffered_cases {copier : Copier} {pol : BufPolicy} {faults : Faults} {wf fuel : Nat} {fs : ImgFs}
    {s s' : PackState BufFile} {res : Res Unit} (hc : fs.cache = Trie.empty)
    (h : repackBuffered copier pol faults wf fuel fs s = (res, s')) :
    (∃ fs', After wf fs fs' ∧
      (∀ p, DirOf (imgReadDir fs.dev wf fs.vol.root) p → Known fs.dev wf fs.vol.root fs'.cache p) ∧
      createImage (bufEnv (pureSource wf copier fs') pol faults) fuel s = (res, s')) ∨
    ((∀ u, res ≠ .ok u) ∧ s'.dev = s.dev) := by
  have hinv : CacheInv fs.dev wf fs.vol.root fs.cache := by rw [hc]; exact cacheInv_empty _ _ _
  obtain ⟨h1, h2⟩ := imgTreeLoop_spec fuel fs [[]] [] s hinv (by simp)
  simp only [repackBuffered, PM.bind_def] at h
  rcases hx : imgTreeLoop wf fuel fs [[]] [] s with ⟨r, s1⟩
  rw [hx] at h h1 h2
  cases r with
  | ok x =>
    obtain ⟨D, fs'⟩ := x
    left
    simp only at h
    obtain ⟨j1, j2, j3⟩ := h2 D fs' rfl
    have hdt := j1 (bufEnv (pureSource wf copier fs') pol faults) (by
      simp only [bufEnv, pureSource]; rw [j2.dev, j2.vol])
    refine ⟨fs', j2, ?_, ?_⟩
    · intro p hp
      obtain ⟨k1, _, _⟩ := dirTree_ok hdt
      have : (bufEnv (pureSource wf copier fs') pol faults).readDir = imgReadDir fs.dev wf fs.vol.root := by
        simp only [bufEnv, pureSource]; rw [j2.dev, j2.vol]
      rw [this] at k1
      obtain ⟨y, hy, rfl⟩ := List.mem_map.1 ((k1.mem_iff p).2 hp)
      exact j3 (by simp) y hy
    · simp only [createImage, dirTree, PM.bind_def, hdt]
      rw [← h]
      exact congrFun (createFrom_congr (bufEnv (fs'.source (fun _ => .err .other) copier) pol faults)
        (imgReadDir fs'.dev wf fs'.vol.root) D) s1
  | err e => right; cases h; exact ⟨by simp, h1⟩
  | panic => right; cases h; exact ⟨by simp, h1⟩
  | hang => right; cases h; exact ⟨by simp, h1⟩

theorem repackBuffered_success {copier : Copier} {pol : BufPolicy} {faults : Faults} {wf fuel : Nat} {fs : ImgFs}
    {s' : PackState BufFile} {content : Path → Bytes} (hc : fs.cache = Trie.empty)
    (hcop : CopiesFrom fs.dev copier) (hcont : ImgContent fs.dev wf fs.vol.root content)
    (h : repackBuffered copier pol faults wf fuel fs ⟨⟨[], 0, [], 0⟩, []⟩ = (.ok (), s'))
    (hflush : (dropBuf faults s'.dev).buf = []) :
    HoldsTree (fileDev (dropBuf faults s'.dev).img) (imgReadDir fs.dev wf fs.vol.root) content ∧
    (dropBuf faults s'.dev).img.length % 65536 = 0 := by
  rcases repackBuffered_cases hc h with ⟨fs', h1, h2, h3⟩ | ⟨h1, _⟩
  · have hrd : (pureSource wf copier fs').readDir = imgReadDir fs.dev wf fs.vol.root := by
      simp only [pureSource]; rw [h1.dev, h1.vol]
    have hpf : packFile (pureSource wf copier fs') pol faults fuel = (.ok (), dropBuf faults s'.dev) := by
      unfold packFile; rw [h3]
    obtain ⟨⟨s2, g1, _⟩, ⟨_, g3⟩, g2⟩ := C63_complete_partial hpf hflush
    obtain ⟨D, M, rootW, rootSize, next, recs, n', hS⟩ := shape_of_success g1
    have hdist := PlanShape.allDistinct (fs := pureSource wf copier fs') hS
    have := g2 content (pureSource_bounded hcop)
      (pureSource_faithful h1 h2 (by rw [← hrd]; exact hdist) hcop hcont)
    rw [hrd] at this
    exact ⟨this, g3⟩
  · exact absurd rfl (h1 ())

theorem repackBuffered_crash {copier : Copier} {pol : BufPolicy} {faults : Faults} {wf fuel : Nat} {fs : ImgFs}
    {content : Path → Bytes} (hc : fs.cache = Trie.empty)
    (hcop : CopiesFrom fs.dev copier) (hcont : ImgContent fs.dev wf fs.vol.root content) (b : BufFile)
    (hb : b = (repackBuffered copier pol faults wf fuel fs ⟨⟨[], 0, [], 0⟩, []⟩).2.dev ∨
      b = dropBuf faults (repackBuffered copier pol faults wf fuel fs ⟨⟨[], 0, [], 0⟩, []⟩).2.dev) :
    (∀ v, readVolume (fileDev b.img) ≠ .ok v) ∨
    HoldsTree (fileDev b.img) (imgReadDir fs.dev wf fs.vol.root) content := by
  have hz : ∀ v, readVolume (fileDev []) ≠ .ok v := readVolume_zero (by simp)
  rcases hr : repackBuffered copier pol faults wf fuel fs ⟨⟨[], 0, [], 0⟩, []⟩ with ⟨r, s'⟩
  rw [hr] at hb
  rcases repackBuffered_cases hc hr with ⟨fs', h1, h2, h3⟩ | ⟨_, h1⟩
  · have hrd : (pureSource wf copier fs').readDir = imgReadDir fs.dev wf fs.vol.root := by
      simp only [pureSource]; rw [h1.dev, h1.vol]
    obtain ⟨W, hW, hE⟩ := tool_end (pureSource wf copier fs') pol faults fuel b.img (by
      rcases hb with rfl | rfl
      · exact .inl (by rw [h3])
      · exact .inr (by unfold packFile; rw [h3]))
    by_cases hdist : AllDistinct (imgReadDir fs.dev wf fs.vol.root)
    · have := hE.crash (s' := ⟨⟨b.img, W⟩, []⟩) (pureSource_bounded hcop)
        (pureSource_faithful h1 h2 hdist hcop hcont) hW
      rw [hrd] at this
      exact this
    · left
      rw [← hrd] at hdist
      cases hE with
      | early _ k2 => simp only at k2; subst k2; rw [hW]; exact hz
      | data hS _ _ => exact absurd hS.allDistinct hdist
      | desc hS _ _ _ _ => exact absurd hS.allDistinct hdist
      | pad hS _ _ _ _ _ => exact absurd hS.allDistinct hdist
  · left
    have : b.img = [] := by
      rcases hb with rfl | rfl
      · rw [h1]
      · rw [h1]; rfl
    rw [this]; exact hz

/-! ## Repacking an image file -/

/-- What `packImageOpen` does with an image that opens. -/
theorem packImageOpen_eq {t : Tool} {img : Bytes} {faults : Faults} {base : Nat} {vol : VolDesc}
    (h1 : offsetNew (fileDev img) = .ok base) (h2 : readVolume (offsetDev (fileDev img) base) = .ok vol) :
    packImageOpen t img faults =
      ((repackBuffered (stdIoCopier img base t.split) (cliPolicy t.early) faults t.wfuel t.fuel
          ⟨offsetDev (fileDev img) base, vol, Trie.empty⟩ ⟨⟨[], 0, [], 0⟩, []⟩).1,
       (repackBuffered (stdIoCopier img base t.split) (cliPolicy t.early) faults t.wfuel t.fuel
          ⟨offsetDev (fileDev img) base, vol, Trie.empty⟩ ⟨⟨[], 0, [], 0⟩, []⟩).2.dev) := by
  have h3 : ImgFs.new (offsetDev (fileDev img) base) =
      .ok (some ⟨offsetDev (fileDev img) base, vol, Trie.empty⟩) := by unfold ImgFs.new; rw [h2]
  unfold packImageOpen
  rw [h1]
  simp only
  rw [h3]

theorem packImage_success {t : Tool} (ht : ∀ b, (t.split b).flatten = b) {img : Bytes} {faults : Faults}
    {tree : Path → Res (List FileEntry)} {content : Path → Bytes} (hi : ImageHolds img t.wfuel tree content)
    (h : (packImage t img faults).1 = .ok ()) (hflush : (packImage t img faults).2.buf = []) :
    HoldsTree (fileDev (packImage t img faults).2.img) tree content ∧
    (packImage t img faults).2.img.length % 65536 = 0 := by
  obtain ⟨base, vol, h1, h2, rfl, h4⟩ := hi
  unfold packImage at h hflush ⊢
  rw [packImageOpen_eq h1 h2] at h hflush ⊢
  simp only at h hflush ⊢
  exact repackBuffered_success (copier := stdIoCopier img base t.split) (pol := cliPolicy t.early)
    (fs := ⟨offsetDev (fileDev img) base, vol, Trie.empty⟩) rfl
    (stdIoCopier_copies_offset ht) h4 (Prod.ext h rfl) hflush

theorem packImage_crash {t : Tool} (ht : ∀ b, (t.split b).flatten = b) {img : Bytes} {faults : Faults}
    {tree : Path → Res (List FileEntry)} {content : Path → Bytes} (hi : ImageHolds img t.wfuel tree content)
    (b : BufFile) (hb : b = (packImageOpen t img faults).2 ∨ b = (packImage t img faults).2) :
    (∀ v, readVolume (fileDev b.img) ≠ .ok v) ∨ HoldsTree (fileDev b.img) tree content := by
  obtain ⟨base, vol, h1, h2, rfl, h4⟩ := hi
  unfold packImage at hb
  rw [packImageOpen_eq h1 h2] at hb
  simp only at hb
  exact repackBuffered_crash (copier := stdIoCopier img base t.split) (pol := cliPolicy t.early)
    (fs := ⟨offsetDev (fileDev img) base, vol, Trie.empty⟩) rfl
    (stdIoCopier_copies_offset ht) h4 b hb

/-! ## Paths -/

theorem packOpen_ok {fs fs1 : HostFs} {src dst : HostPath} (h : packOpen fs src dst = .ok fs1) :
    fs1 = fs.set dst (.file []) ∧ ¬ src <+: dst ∧ (∃ n, fs src = some n) ∧ fs dst ≠ some .dir := by
  unfold packOpen at h
  split at h
  · cases h
  next n hn =>
    split at h
    · cases h
    split at h
    · cases h
    next hp =>
      split at h
      · cases h
      next hd =>
        simp only [Res.ok.injEq] at h
        exact ⟨h.symm, by rwa [List.isPrefixOf_iff_prefix] at hp, ⟨n, hn⟩, fun hx => hd (.inl hx)⟩

theorem set_ne {fs : HostFs} {p q : HostPath} {n : HostNode} (h : q ≠ p) : (fs.set p n) q = fs q := by
  unfold HostFs.set; rw [if_neg h]

theorem set_self {fs : HostFs} {p : HostPath} {n : HostNode} : (fs.set p n) p = some n := by
  unfold HostFs.set; rw [if_pos rfl]

/-- What can be seen while an image is packed: only the output changes, and to what. -/
theorem packPathImage_seen {t : Tool} {faults : Faults} {fs : HostFs} {src dst : HostPath} :
    (∀ st, st ∈ (packPathImage t faults fs src dst).1 ∨ (packPathImage t faults fs src dst).2 = .ok st →
      ¬ src <+: dst ∧ (∀ q, q ≠ dst → st q = fs q) ∧
      (st dst = some (.file []) ∨ ∃ img, fs src = some (.file img) ∧
        (st dst = some (.file (packImageOpen t img faults).2.img) ∨
         st dst = some (.file (packImage t img faults).2.img)))) ∧
    ∀ st, (packPathImage t faults fs src dst).2 = .ok st → ∃ img, fs src = some (.file img) ∧
      (packImage t img faults).1 = .ok () ∧ st dst = some (.file (packImage t img faults).2.img) := by
  unfold packPathImage
  cases ho : packOpen fs src dst with
  | err e => simp
  | panic => simp
  | hang => simp
  | ok fs1 =>
    obtain ⟨rfl, h1, ⟨n, h2⟩, _⟩ := packOpen_ok ho
    have hne : src ≠ dst := fun h => h1 (by rw [h]; exact List.prefix_refl _)
    have hsrc : (fs.set dst (.file [])) src = fs src := set_ne hne
    simp only [hsrc, h2]
    have hfin : ∀ (x : Bytes) q, q ≠ dst → ((fs.set dst (.file [])).set dst (.file x)) q = fs q := by
      intro x q hq; rw [set_ne hq, set_ne hq]
    cases n with
    | dir =>
      simp only [List.mem_singleton, reduceCtorEq, or_false, false_implies, implies_true, and_true]
      intro st hst
      subst hst
      exact ⟨h1, fun q hq => set_ne hq, .inl set_self⟩
    | file img =>
      simp only
      have hseen : ∀ st, st ∈ [fs.set dst (.file []),
          (fs.set dst (.file [])).set dst (.file (packImageOpen t img faults).2.img),
          (fs.set dst (.file [])).set dst (.file (packImage t img faults).2.img)] →
          ¬ src <+: dst ∧ (∀ q, q ≠ dst → st q = fs q) ∧
          (st dst = some (.file []) ∨ ∃ img', some (HostNode.file img) = some (.file img') ∧
            (st dst = some (.file (packImageOpen t img' faults).2.img) ∨
             st dst = some (.file (packImage t img' faults).2.img))) := by
        intro st hst
        simp only [List.mem_cons, List.not_mem_nil, or_false] at hst
        rcases hst with rfl | rfl | rfl
        · exact ⟨h1, fun q hq => set_ne hq, .inl set_self⟩
        · exact ⟨h1, hfin _, .inr ⟨img, rfl, .inl set_self⟩⟩
        · exact ⟨h1, hfin _, .inr ⟨img, rfl, .inr set_self⟩⟩
      cases hr : (packImage t img faults).1 with
      | ok u =>
        simp only [Res.ok.injEq]
        refine ⟨fun st hst => hseen st ?_, fun st hst => ⟨img, rfl, hr, ?_⟩⟩
        · rcases hst with hst | rfl
          · exact hst
          · simp
        · subst hst; exact set_self
      | err e => simp only [reduceCtorEq, or_false, false_implies, implies_true, and_true]; exact hseen
      | panic => simp only [reduceCtorEq, or_false, false_implies, implies_true, and_true]; exact hseen
      | hang => simp only [reduceCtorEq, or_false, false_implies, implies_true, and_true]; exact hseen

theorem rename_ok {fs fs1 : HostFs} {a b : HostPath} (h : fs.rename a b = .ok fs1) :
    fs1 b = fs a ∧ (a ≠ b → fs1 a = none) ∧ ∀ q, q ≠ a → q ≠ b → fs1 q = fs q := by
  unfold HostFs.rename at h
  split at h
  next n hn =>
    split at h
    · cases h
    · simp only [Res.ok.injEq] at h
      subst h
      refine ⟨by simp [hn], fun hab => by simp [hab], fun q h1 h2 => by simp [h1, h2]⟩
  · cases h

/-- A rewrite touches only the image, the name it is moved to, and the output. -/
theorem rewriteOne_frame {t : Tool} {dir : Option HostPath} {delete : Bool} {faults : Faults} {fs : HostFs}
    {src : HostPath} {q : HostPath} (hq : q ∉ touched dir src) {st : HostFs}
    (h : st ∈ (rewriteOne t dir delete faults fs src).1 ∨ (rewriteOne t dir delete faults fs src).2 = .ok st) :
    st q = fs q := by
  simp only [touched, List.mem_cons, List.not_mem_nil, or_false, not_or] at hq
  obtain ⟨q1, q2, q3⟩ := hq
  unfold rewriteOne at h
  cases hs : fs src with
  | none => simp [hs] at h
  | some n =>
    cases n with
    | dir => simp [hs] at h
    | file img =>
      rw [hs] at h
      simp only at h
      cases hr : fs.rename src (oldPath src) with
      | err e => simp [hr] at h
      | panic => simp [hr] at h
      | hang => simp [hr] at h
      | ok fs1 =>
        rw [hr] at h
        simp only at h
        obtain ⟨_, _, r3⟩ := rename_ok hr
        have hs1 := r3 q q1 q2
        obtain ⟨p1, _⟩ := packPathImage_seen (t := t) (faults := faults) (fs := fs1) (src := oldPath src)
          (dst := rewriteDest dir src)
        have hmem : ∀ st, st ∈ (packPathImage t faults fs1 (oldPath src) (rewriteDest dir src)).1 ∨
            (packPathImage t faults fs1 (oldPath src) (rewriteDest dir src)).2 = .ok st → st q = fs q := by
          intro st hst
          rw [(p1 st hst).2.1 q q3, hs1]
        cases hp : (packPathImage t faults fs1 (oldPath src) (rewriteDest dir src)).2 with
        | ok fs2 =>
          rw [hp] at h
          simp only at h
          have h2 := hmem fs2 (.inr hp)
          have hrm : (fs2.remove (oldPath src)) q = fs q := by unfold HostFs.remove; rw [if_neg q2, h2]
          cases delete with
          | true =>
            simp only [if_true, List.cons_append, List.mem_cons, List.mem_append, List.not_mem_nil, or_false,
              Res.ok.injEq] at h
            rcases h with (rfl | h | rfl) | rfl
            · exact hs1
            · exact hmem st (.inl h)
            · exact hrm
            · exact hrm
          | false =>
            simp only [Bool.false_eq_true, if_false, List.mem_cons, Res.ok.injEq] at h
            rcases h with (rfl | h) | rfl
            · exact hs1
            · exact hmem st (.inl h)
            · exact h2
        | err e =>
          rw [hp] at h
          simp only [List.mem_cons, reduceCtorEq, or_false] at h
          rcases h with rfl | h
          · exact hs1
          · exact hmem st (.inl h)
        | panic =>
          rw [hp] at h
          simp only [List.mem_cons, reduceCtorEq, or_false] at h
          rcases h with rfl | h
          · exact hs1
          · exact hmem st (.inl h)
        | hang =>
          rw [hp] at h
          simp only [List.mem_cons, reduceCtorEq, or_false] at h
          rcases h with rfl | h
          · exact hs1
          · exact hmem st (.inl h)

theorem rewriteAll_frame {t : Tool} {dir : Option HostPath} {delete : Bool} {q : HostPath} :
    ∀ (images : List (HostPath × Faults)) (fs : HostFs), (∀ x ∈ images, q ∉ touched dir x.1) → ∀ {st : HostFs},
    st ∈ (rewriteAll t dir delete images fs).1 ∨ (rewriteAll t dir delete images fs).2 = .ok st → st q = fs q := by
  intro images
  induction images with
  | nil => intro fs _ st h; simp [rewriteAll] at h; rw [h]
  | cons x images ih =>
    intro fs hq st h
    obtain ⟨src, faults⟩ := x
    have hx := hq (src, faults) (by simp)
    simp only [rewriteAll] at h
    cases hr : (rewriteOne t dir delete faults fs src).2 with
    | ok fs' =>
      rw [hr] at h
      simp only [List.mem_append] at h
      have h1 := rewriteOne_frame hx (.inr hr)
      rcases h with (h | h) | h
      · exact rewriteOne_frame hx (.inl h)
      · rw [ih fs' (fun y hy => hq y (by simp [hy])) (.inl h), h1]
      · rw [ih fs' (fun y hy => hq y (by simp [hy])) (.inr h), h1]
    | err e => rw [hr] at h; simp only [reduceCtorEq, or_false] at h; exact rewriteOne_frame hx (.inl h)
    | panic => rw [hr] at h; simp only [reduceCtorEq, or_false] at h; exact rewriteOne_frame hx (.inl h)
    | hang => rw [hr] at h; simp only [reduceCtorEq, or_false] at h; exact rewriteOne_frame hx (.inl h)

/-- What rewriting one image leaves of it. -/
theorem rewriteOne_kept {t : Tool} {dir : Option HostPath} {delete : Bool} {faults : Faults} {fs : HostFs}
    {src : HostPath} {img : Bytes} (hs : fs src = some (.file img)) {st : HostFs}
    (h : st ∈ (rewriteOne t dir delete faults fs src).1 ∨ (rewriteOne t dir delete faults fs src).2 = .ok st) :
    st (oldPath src) = some (.file img) ∨
    (delete = true ∧ st (oldPath src) = none ∧ (packImage t img faults).1 = .ok () ∧
      st (rewriteDest dir src) = some (.file (packImage t img faults).2.img) ∧
      (src ≠ rewriteDest dir src → st src = none)) := by
  unfold rewriteOne at h
  rw [hs] at h
  simp only at h
  cases hr : fs.rename src (oldPath src) with
  | err e => simp [hr] at h
  | panic => simp [hr] at h
  | hang => simp [hr] at h
  | ok fs1 =>
    rw [hr] at h
    simp only at h
    obtain ⟨r1, r2, r3⟩ := rename_ok hr
    rw [hs] at r1
    obtain ⟨p1, p2⟩ := packPathImage_seen (t := t) (faults := faults) (fs := fs1) (src := oldPath src)
      (dst := rewriteDest dir src)
    have hmem : ∀ st, st ∈ (packPathImage t faults fs1 (oldPath src) (rewriteDest dir src)).1 ∨
        (packPathImage t faults fs1 (oldPath src) (rewriteDest dir src)).2 = .ok st →
        st (oldPath src) = some (.file img) := by
      intro st hst
      obtain ⟨k1, k2, _⟩ := p1 st hst
      rw [k2 _ (fun he => k1 (by rw [he]; exact List.prefix_refl _)), r1]
    cases hp : (packPathImage t faults fs1 (oldPath src) (rewriteDest dir src)).2 with
    | ok fs2 =>
      rw [hp] at h
      simp only at h
      have h2 := hmem fs2 (.inr hp)
      obtain ⟨img', g1, g2, g3⟩ := p2 fs2 hp
      rw [r1] at g1
      cases g1
      obtain ⟨k1, k2, _⟩ := p1 fs2 (.inr hp)
      have hne : rewriteDest dir src ≠ oldPath src := fun he => k1 (by rw [he]; exact List.prefix_refl _)
      cases delete with
      | true =>
        simp only [if_true, List.cons_append, List.mem_cons, List.mem_append, List.not_mem_nil, or_false,
          Res.ok.injEq] at h
        have hrm : (fs2.remove (oldPath src)) (oldPath src) = none ∧
            (fs2.remove (oldPath src)) (rewriteDest dir src) = some (.file (packImage t img faults).2.img) ∧
            (src ≠ rewriteDest dir src → (fs2.remove (oldPath src)) src = none) := by
          unfold HostFs.remove
          refine ⟨by rw [if_pos rfl], by rw [if_neg hne, g3], fun hsd => ?_⟩
          by_cases hso : src = oldPath src
          · rw [if_pos hso]
          · rw [if_neg hso, k2 _ hsd, r2 hso]
        rcases h with (rfl | h | rfl) | rfl
        · exact .inl r1
        · exact .inl (hmem st (.inl h))
        · exact .inr ⟨rfl, hrm.1, g2, hrm.2⟩
        · exact .inr ⟨rfl, hrm.1, g2, hrm.2⟩
      | false =>
        simp only [Bool.false_eq_true, if_false, List.mem_cons, Res.ok.injEq] at h
        rcases h with (rfl | h) | rfl
        · exact .inl r1
        · exact .inl (hmem st (.inl h))
        · exact .inl h2
    | err e =>
      rw [hp] at h
      simp only [List.mem_cons, reduceCtorEq, or_false] at h
      rcases h with rfl | h
      · exact .inl r1
      · exact .inl (hmem st (.inl h))
    | panic =>
      rw [hp] at h
      simp only [List.mem_cons, reduceCtorEq, or_false] at h
      rcases h with rfl | h
      · exact .inl r1
      · exact .inl (hmem st (.inl h))
    | hang =>
      rw [hp] at h
      simp only [List.mem_cons, reduceCtorEq, or_false] at h
      rcases h with rfl | h
      · exact .inl r1
      · exact .inl (hmem st (.inl h))

/-- An invariant of what a rewrite touches holds through the whole run: it holds before the image's turn, at every
moment of its turn, and it does not depend on anything the others touch. -/
theorem rewriteAll_inv {t : Tool} {dir : Option HostPath} {delete : Bool} {src : HostPath} {P : HostFs → Prop}
    (hP : ∀ a b : HostFs, (∀ q ∈ touched dir src, a q = b q) → P a → P b) (img : Bytes)
    {faults : Faults}
    (hstart : ∀ a : HostFs, a src = some (.file img) → P a)
    (hone : ∀ fs st : HostFs, fs src = some (.file img) → (st ∈ (rewriteOne t dir delete faults fs src).1 ∨
      (rewriteOne t dir delete faults fs src).2 = .ok st) → P st) :
    ∀ (images : List (HostPath × Faults)) (fs : HostFs), fs src = some (.file img) → (src, faults) ∈ images →
      images.Pairwise (fun a b => Separate dir a.1 b.1) →
    ∀ st, st ∈ (rewriteAll t dir delete images fs).1 ∨ (rewriteAll t dir delete images fs).2 = .ok st → P st := by
  intro images
  induction images with
  | nil => intro fs _ h; cases h
  | cons x images ih =>
    intro fs hs hmem hsep st h
    obtain ⟨s1, f1⟩ := x
    simp only [List.pairwise_cons] at hsep
    simp only [rewriteAll] at h
    by_cases hx : (src, faults) = (s1, f1)
    · cases hx
      have hrest : ∀ y ∈ images, ∀ q ∈ touched dir src, q ∉ touched dir y.1 := fun y hy => hsep.1 y hy
      have hfst : ∀ st, st ∈ (rewriteOne t dir delete faults fs src).1 → P st := fun st h => hone fs st hs (.inl h)
      cases hr : (rewriteOne t dir delete faults fs src).2 with
      | ok fs' =>
        rw [hr] at h
        simp only [List.mem_append] at h
        have hfs' := hone fs fs' hs (.inr hr)
        rcases h with (h | h) | h
        · exact hfst st h
        · refine hP fs' st (fun q hq => ?_) hfs'
          exact (rewriteAll_frame images fs' (fun y hy => hrest y hy q hq) (.inl h)).symm
        · refine hP fs' st (fun q hq => ?_) hfs'
          exact (rewriteAll_frame images fs' (fun y hy => hrest y hy q hq) (.inr h)).symm
      | err e => rw [hr] at h; simp only [reduceCtorEq, or_false] at h; exact hfst st h
      | panic => rw [hr] at h; simp only [reduceCtorEq, or_false] at h; exact hfst st h
      | hang => rw [hr] at h; simp only [reduceCtorEq, or_false] at h; exact hfst st h
    · have hmem' : (src, faults) ∈ images := by
        rcases List.mem_cons.1 hmem with h | h
        · exact absurd h hx
        · exact h
      have hns : ∀ q ∈ touched dir src, q ∉ touched dir s1 := fun q hq hq' => hsep.1 _ hmem' q hq' hq
      have hsrc : src ∈ touched dir src := by simp [touched]
      have hfst : ∀ st, st ∈ (rewriteOne t dir delete f1 fs s1).1 → P st := by
        intro st h
        apply hstart
        rw [rewriteOne_frame (hns src hsrc) (.inl h), hs]
      cases hr : (rewriteOne t dir delete f1 fs s1).2 with
      | ok fs' =>
        rw [hr] at h
        simp only [List.mem_append] at h
        have hs' : fs' src = some (.file img) := by rw [rewriteOne_frame (hns src hsrc) (.inr hr), hs]
        rcases h with (h | h) | h
        · exact hfst st h
        · exact ih fs' hs' hmem' hsep.2 st (.inl h)
        · exact ih fs' hs' hmem' hsep.2 st (.inr h)
      | err e => rw [hr] at h; simp only [reduceCtorEq, or_false] at h; exact hfst st h
      | panic => rw [hr] at h; simp only [reduceCtorEq, or_false] at h; exact hfst st h
      | hang => rw [hr] at h; simp only [reduceCtorEq, or_false] at h; exact hfst st h

end Xdvdfs
