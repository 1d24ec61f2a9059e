import Verif.Spec.Session
import Verif.Proof.CliPaths
import Verif.Proof.Compress
import Verif.Proof.Cli

/-!
# Helper lemmas about histories
-/

namespace Xdvdfs

open Spec

theorem wf_at {fs st : HostFs} {out : HostPath} (hw : WellFormedHost fs) (hnd : fs out ≠ some .dir)
    (hp : fs out.dropLast = some .dir) (hst : ∀ q, q ≠ out → st q = fs q) : WellFormedHost st := by
  have hne : out ≠ [] := fun e => hnd (by rw [e]; exact hw.1)
  refine ⟨by rw [hst [] (Ne.symm hne)]; exact hw.1, fun q c hq => ?_⟩
  by_cases h1 : q ++ [c] = out
  · have : q ≠ out := fun e => by rw [e] at h1; simpa using congrArg List.length h1
    rw [hst q this, ← hp, ← h1]; simp
  · rw [hst _ h1] at hq
    have hd := hw.2 q c hq
    rw [hst q (fun e => hnd (by rw [← e]; exact hd))]
    exact hd

theorem resolve_parent {h : Host} {fs : HostFs} (hs : Sane h fs) {path : Str} {p : HostPath}
    (hr : h.resolve fs path = .ok p) (hnd : fs p ≠ some .dir) : fs p.dropLast = some .dir := by
  rcases hostWalk_parent hs.wf _ _ (resolve_walk hr) (start_dir hs.wf hs.cwd path) with e | e
  · exact absurd e hnd
  · exact e

theorem pack_frame {h : Host} {t : Tool} {read : HostFs → HostPath → SourceFs} {faults : Faults} {fs st : HostFs}
    {source image : Str} (hs : Sane h fs) (hst : st ∈ (cmdPackArgs h t read faults fs source (some image)).1 ∨
      (cmdPackArgs h t read faults fs source (some image)).2 = .ok st) :
    WellFormedHost st ∧ ∀ q, q ≠ placeOf h image → st q = fs q := by
  unfold cmdPackArgs at hst
  split at hst
  · simp at hst
  · next src node hn =>
    simp only at hst
    obtain ⟨out, fs1, ho, hq⟩ := packPathArg_seen hst
    obtain ⟨e1, e2, e3, _⟩ := packOpenArg_ok ho
    rw [← e1]
    exact ⟨wf_at hs.wf e3 (resolve_parent hs e2 e3) hq, hq⟩

theorem build_frame {h : Host} {t : Tool} {G : GlobEngine} {parse : Bytes → Option ImageSpec} {r : DirReader} {self : Bytes}
    {faults : Faults} {fs st : HostFs} {a : BuildStrings} {image : Str} {lines} (hs : Sane h fs) (ha : a.image = some image)
    (hst : st ∈ (cmdBuildStrings h t G parse r self faults fs a).1 ∨
      (cmdBuildStrings h t G parse r self faults fs a).2 = .ok ⟨st, lines⟩) :
    WellFormedHost st ∧ ∀ q, q ≠ placeOf h image → st q = fs q := by
  unfold cmdBuildStrings at hst
  simp only at hst
  split at hst
  · next rules source img hplan =>
    have hi : img = image := by
      obtain ⟨_, _, k⟩ := Res.bind_eq_ok.1 hplan
      obtain ⟨_, _, k⟩ := Res.bind_eq_ok.1 k
      obtain ⟨_, _, k⟩ := Res.bind_eq_ok.1 k
      cases k
      simp [buildOutputString, ha]
    subst hi
    unfold runBuildStrings at hst
    split at hst
    · split at hst
      · split at hst
        · split at hst <;> simp at hst
          rw [← hst.1]
          exact ⟨hs.wf, fun _ _ => rfl⟩
        · split at hst
          · next out fs1 ho =>
            obtain ⟨e2, e1, e3, _, e5⟩ := openOutput_ok ho
            have fin : (∀ q, q ≠ out → st q = fs q) → WellFormedHost st ∧ ∀ q, q ≠ placeOf h img → st q = fs q := by
              intro hq
              rw [← e1]
              exact ⟨wf_at hs.wf e3 (resolve_parent hs e2 e3) hq, hq⟩
            apply fin
            intro q hq
            simp only at hst
            subst e5
            split at hst <;> simp at hst
            · rcases hst with (rfl | rfl | rfl) | ⟨rfl, _⟩ <;> simp [set_other hq]
            · rcases hst with rfl | rfl | rfl <;> simp [set_other hq]
            · rcases hst with rfl | rfl | rfl <;> simp [set_other hq]
            · rcases hst with rfl | rfl | rfl <;> simp [set_other hq]
          all_goals simp at hst
      all_goals simp at hst
    · split at hst <;> simp at hst
  all_goals simp at hst

theorem writeFile_sane {h : Host} {path : Str} {data : Res Bytes} {fs fs' : HostFs} {r} (hs : Sane h fs)
    (hc : h.writeFile path data fs = (r, fs')) : Sane h fs' := by
  rcases writeFile_changes hc with rfl | ⟨k1, k2, b, rfl⟩
  · exact hs
  · exact hs.set k2 k1

theorem writeParts_sane {h : Host} {c : Ciso} {image : Str} : ∀ (bs : List Bytes) (i : Nat) {fs fs' : HostFs} {r},
    Sane h fs → writeParts h c image i bs fs = (r, fs') → Sane h fs' := by
  intro bs
  induction bs with
  | nil => intro i fs fs' r hs hw; cases hw; exact hs
  | cons b bs ih =>
    intro i fs fs' r hs hw
    simp only [writeParts] at hw
    rcases hx : h.writeFile (c.partName image i) (.ok b) fs with ⟨r1, fs1⟩
    have h1 := writeFile_sane hs hx
    rw [hx] at hw
    cases r1 with
    | ok u => exact ih _ h1 hw
    | err e => cases hw; exact h1
    | panic => cases hw; exact h1
    | hang => cases hw; exact h1

theorem encodeLoop_sane {h : Host} {c : Ciso} {image : Str} {copy : HostFs → BufCopier} {m : SecMap} :
    ∀ (n : Nat) (secs : List Bytes) {fs fs' : HostFs} {r}, Sane h fs →
      encodeLoop h c image copy m n secs fs = (r, fs') → Sane h fs' := by
  intro n
  induction n with
  | zero => intro secs fs fs' r hs hw; exact writeParts_sane _ _ hs hw
  | succ n ih =>
    intro secs fs fs' r hs hw
    simp only [encodeLoop] at hw
    rcases hx : writeParts h c image 0 (c.partial_ (secs.length + n + 1) secs) fs with ⟨r1, fs1⟩
    have h1 := writeParts_sane _ _ hs hx
    rw [hx] at hw
    cases r1 with
    | ok u =>
      simp only at hw
      split at hw
      · exact ih _ h1 hw
      all_goals (cases hw; exact h1)
    | err e => cases hw; exact h1
    | panic => cases hw; exact h1
    | hang => cases hw; exact h1

theorem compress_sane {h : Host} {t : Tool} {r : DirReader} {most : Path → (off n : Nat) → Nat} {c : Ciso} {fs fs' : HostFs}
    {source : Str} {image : Option Str} {res} (hs : Sane h fs)
    (hc : cmdCompressArgs h t r most c fs source image = (res, fs')) : Sane h fs' := by
  unfold cmdCompressArgs at hc
  split at hc
  · cases hc; exact hs
  · simp only at hc
    split at hc
    · split at hc
      · cases hc; exact hs
      · split at hc
        · unfold compressDir at hc
          split at hc
          · exact encodeLoop_sane _ _ hs hc
          all_goals (cases hc; exact hs)
        · unfold compressImage at hc
          split at hc
          · split at hc
            · split at hc
              · exact encodeLoop_sane _ _ hs hc
              all_goals (cases hc; exact hs)
            all_goals (cases hc; exact hs)
          all_goals (cases hc; exact hs)
    all_goals (cases hc; exact hs)

theorem copyoutEntryAt_some (h : Host) (image : HostPath) (base : Nat) (clones : Bool) (dest : Str) (x : Str × DirEnt)
    (fs : HostFs) : ∃ r, copyoutEntryAt h image base clones dest x fs = copyoutEntry h r dest x fs := by
  rcases hc : h.createDirAll (pathJoin dest (trimSlashes x.1)) fs with ⟨res, fs1⟩
  refine ⟨⟨if h.resolve fs1 (pathJoin (pathJoin dest (trimSlashes x.1)) x.2.nameStr) = .ok image then []
    else imageNow fs1 image, base, clones⟩, ?_⟩
  unfold copyoutEntryAt copyoutEntry
  simp only [hc]
  cases res <;> rfl

theorem copyoutLoopAt_frame {h : Host} {image : HostPath} {base : Nat} {clones : Bool} {dest : Str} :
    ∀ (B A : List (Str × DirEnt)) (fs : HostFs) {res fs'}, copyoutLoopAt h image base clones dest B fs = (res, fs') →
    Sane h fs → ParentsFirst (A ++ B) → (∀ x ∈ B, '/' ∉ x.2.nameStr) →
    (∀ y ∈ A, ['.', '.'] ∉ hostComps y.1 ∧ '/' ∉ y.2.nameStr ∧
      (y.2.node.dirent.isDirectory = true → y.2.nameStr ≠ ['.', '.'])) →
    Sane h fs' ∧ ChangesOnlyInside h dest fs fs' := by
  intro B
  induction B with
  | nil => intro A fs res fs' hrun hs _ _ _; cases hrun; exact ⟨hs, ChangesOnlyInside.refl _ _ _⟩
  | cons x xs ih =>
    intro A fs res fs' hrun hs hp hn hA
    simp only [copyoutLoopAt] at hrun
    have hx : ['.', '.'] ∉ hostComps x.1 := by
      rcases hp A x xs rfl with e | ⟨y, hy, hyd, e⟩
      · rw [e, hostComps_nil]; simp
      · obtain ⟨g1, g2, g3⟩ := hA y hy
        rw [e, hostComps_join]
        simp only [List.mem_append, not_or]
        refine ⟨g1, ?_⟩
        by_cases e0 : y.2.nameStr = []
        · rw [e0, hostComps_nil]; simp
        · rw [hostComps_plain g2 e0]; simp only [List.mem_singleton]; exact fun e' => g3 hyd e'.symm
    obtain ⟨r, hr⟩ := copyoutEntryAt_some h image base clones dest x fs
    rw [hr] at hrun
    cases hc : copyoutEntry h r dest x fs with
    | mk r1 fs1 =>
    obtain ⟨h1, h2⟩ := copyoutEntry_contained hc hs (hn x (by simp)) hx
    have hs1 := (copyoutEntry_keeps hc hs).1
    rw [hc] at hrun
    cases r1 with
    | ok u =>
      simp only at hrun
      obtain ⟨h3, h4⟩ := h2 rfl
      obtain ⟨k1, k2⟩ := ih (A ++ [x]) fs1 hrun h3 (by simpa using hp) (fun y hy => hn y (by simp [hy])) (by
        intro y hy
        rcases List.mem_append.1 hy with hy | hy
        · exact hA y hy
        · simp only [List.mem_singleton] at hy
          subst hy
          exact ⟨hx, hn _ (by simp), h4⟩)
      exact ⟨k1, ChangesOnlyInside.trans h1 k2⟩
    | err e => simp only at hrun; cases hrun; exact ⟨hs1, h1⟩
    | panic => simp only at hrun; cases hrun; exact ⟨hs1, h1⟩
    | hang => simp only at hrun; cases hrun; exact ⟨hs1, h1⟩

theorem unpack_frame {h : Host} {clones : Bool} {fuel : Nat} {fs : HostFs} {image dest : Str} (hs : Sane h fs)
    (hn : ∀ p img, h.stat fs image = some (p, .file img) → NoSlashNames img fuel) :
    Sane h (cmdUnpackArgs h clones fuel fs image (some dest)).2 ∧
      ChangesOnlyInside h dest fs (cmdUnpackArgs h clones fuel fs image (some dest)).2 := by
  have idle : Sane h fs ∧ ChangesOnlyInside h dest fs fs := ⟨hs, ChangesOnlyInside.refl _ _ _⟩
  unfold cmdUnpackArgs
  simp only
  split
  · next p img hst =>
    split
    · next base hb =>
      split
      · next vol hv =>
        split
        · next tree ht =>
          rcases hrun : copyoutLoopAt h p base clones dest tree fs with ⟨res, fs'⟩
          exact copyoutLoopAt_frame tree [] fs hrun hs (fileTree_parents ht) (hn p img hst base vol tree hb hv ht) (by simp)
        all_goals exact idle
      all_goals exact idle
    all_goals exact idle
  · exact idle

theorem copyoutDirectory_frame {h : Host} {r : RawImage} {dest : Str} {tab : Region} {fuel : Nat} {fs : HostFs} (hs : Sane h fs)
    (hn : ∀ tree, fileTree r.dev tab fuel = .ok tree → ∀ x ∈ tree, '/' ∉ x.2.nameStr) :
    Sane h (copyoutDirectory h r dest tab fuel fs).2 ∧ ChangesOnlyInside h dest fs (copyoutDirectory h r dest tab fuel fs).2 := by
  have idle : Sane h fs ∧ ChangesOnlyInside h dest fs fs := ⟨hs, ChangesOnlyInside.refl _ _ _⟩
  unfold copyoutDirectory
  split
  · next tree ht =>
    rcases hrun : copyoutLoop h r dest tree fs with ⟨res, fs'⟩
    exact ⟨(copyoutLoop_keeps _ _ hrun hs).1, copyoutLoop_contained tree [] fs hrun hs (fileTree_parents ht) (hn tree ht) (by simp)⟩
  all_goals exact idle

theorem copyout_frame {h : Host} {clones : Bool} {fuel : Nat} {fs : HostFs} {img : Bytes} {path dest : Str} (hs : Sane h fs)
    (hn : NoSlashNames img fuel) (hb : NoSlashBelow img path fuel) :
    Sane h (cmdCopyout h img clones path dest fuel fs).2 ∧
      ChangesOnlyInside h dest fs (cmdCopyout h img clones path dest fuel fs).2 := by
  have idle : Sane h fs ∧ ChangesOnlyInside h dest fs fs := ⟨hs, ChangesOnlyInside.refl _ _ _⟩
  unfold cmdCopyout
  split
  · next base h1 =>
    simp only
    split
    · next vol h2 =>
      split
      · exact copyoutDirectory_frame hs (fun tree ht => hn base vol tree h1 h2 ht)
      · split
        · next d h3 =>
          split
          · next tab h4 => exact copyoutDirectory_frame hs (fun tree ht => hb base vol d tab tree h1 h2 h3 h4 ht)
          · rcases hx : h.writeFile dest (RawImage.extract ⟨img, base, clones⟩ d.node.dirent) fs with ⟨r1, fs1⟩
            refine ⟨writeFile_sane hs hx, ?_⟩
            rcases writeFile_changes hx with k | ⟨k1, _, b, k⟩
            · rw [k]; exact idle.2
            · simp only [k]; exact changes_of_set (List.prefix_refl _)
        all_goals exact idle
    all_goals exact idle
  all_goals exact idle

theorem imageSpec_frame {h : Host} {print : ImageSpec → Bytes} {cut : Option Nat} {fs st : HostFs}
    {rules : Option (List Str)} {output : Option Str} {file : Str} {out : Bytes} (hs : Sane h fs)
    (hst : st ∈ (cmdImageSpec h print cut fs rules output (some file)).1 ∨
      (cmdImageSpec h print cut fs rules output (some file)).2 = .ok (st, out)) :
    WellFormedHost st ∧ ∀ q, q ≠ placeOf h file → st q = fs q := by
  unfold cmdImageSpec at hst
  split at hst
  · simp only at hst
    split at hst
    · next p fs1 ho =>
      obtain ⟨e2, e1, e3, _, e5⟩ := openOutput_ok ho
      have hq : ∀ q, q ≠ p → st q = fs q := by
        intro q hq
        subst e5
        cases cut <;> simp only [List.mem_cons, List.not_mem_nil, or_false, Res.ok.injEq, Prod.mk.injEq, reduceCtorEq] at hst
        · rcases hst with (rfl | rfl) | ⟨rfl, _⟩ <;> simp [set_other hq]
        · rcases hst with rfl | rfl <;> simp [set_other hq]
      rw [← e1]
      exact ⟨wf_at hs.wf e3 (resolve_parent hs e2 e3) hq, hq⟩
    all_goals simp at hst
  all_goals simp at hst

theorem createSingle_frame {h : Host} {t : Tool} {read : HostFs → HostPath → SourceFs} {faults : Faults} {fs st : HostFs}
    {dir image : Str} (hs : Sane h fs) (hst : st ∈ (exisoCreateSingle h t read faults fs dir (some image)).1 ∨
      (exisoCreateSingle h t read faults fs dir (some image)).2 = .ok st) :
    Sane h st ∧ ∀ q, q ≠ placeOf h image → st q = fs q := by
  unfold exisoCreateSingle at hst
  split at hst
  · simp only at hst
    obtain ⟨out, fs1, ho, hq⟩ := packPathArg_seen hst
    obtain ⟨e1, e2, e3, _⟩ := packOpenArg_ok ho
    rw [← e1]
    refine ⟨⟨wf_at hs.wf e3 (resolve_parent hs e2 e3) hq, ?_⟩, hq⟩
    rw [hq _ (fun e => e3 (by rw [← e]; exact hs.cwd))]
    exact hs.cwd
  all_goals simp at hst

theorem createTasks_frame {h : Host} {t : Tool} {read : HostFs → HostPath → SourceFs} :
    ∀ (runs : List ((Str × Option Str) × Faults)) (tasks : List (Str × Str)) {fs st : HostFs}, Sane h fs →
    runs.map Prod.fst = tasks.map (fun x => (x.1, some x.2)) →
    (st ∈ (exisoCreateTasks h t read runs fs).1 ∨ (exisoCreateTasks h t read runs fs).2 = .ok st) →
    WellFormedHost st ∧ ∀ q, (¬ ∃ x ∈ tasks, q = placeOf h x.2) → st q = fs q := by
  intro runs
  induction runs with
  | nil =>
    intro tasks fs st hs _ hst
    simp only [exisoCreateTasks, List.not_mem_nil, Res.ok.injEq, false_or] at hst
    subst hst
    exact ⟨hs.wf, fun _ _ => rfl⟩
  | cons x runs ih =>
    intro tasks fs st hs hm hst
    cases tasks with
    | nil => simp at hm
    | cons y tasks =>
      obtain ⟨⟨d, f⟩, faults⟩ := x
      simp only [List.map_cons, List.cons.injEq, Prod.mk.injEq] at hm
      obtain ⟨⟨rfl, rfl⟩, hm⟩ := hm
      have hone : ∀ st, (st ∈ (exisoCreateSingle h t read faults fs y.1 (some y.2)).1 ∨
          (exisoCreateSingle h t read faults fs y.1 (some y.2)).2 = .ok st) →
          Sane h st ∧ ∀ q, (¬ ∃ x ∈ y :: tasks, q = placeOf h x.2) → st q = fs q := by
        intro st hst
        obtain ⟨k1, k2⟩ := createSingle_frame hs hst
        exact ⟨k1, fun q hq => k2 q (fun e => hq ⟨y, by simp, e⟩)⟩
      simp only [exisoCreateTasks] at hst
      split at hst
      · next fs' hr =>
        obtain ⟨k1, k2⟩ := hone fs' (.inr hr)
        simp only [List.mem_append] at hst
        have hrest : (st ∈ (exisoCreateTasks h t read runs fs').1 ∨ (exisoCreateTasks h t read runs fs').2 = .ok st) →
            WellFormedHost st ∧ ∀ q, (¬ ∃ x ∈ y :: tasks, q = placeOf h x.2) → st q = fs q := by
          intro hh
          obtain ⟨g1, g2⟩ := ih tasks k1 hm hh
          refine ⟨g1, fun q hq => ?_⟩
          rw [g2 q (fun ⟨x, hx, e⟩ => hq ⟨x, by simp [hx], e⟩), k2 q hq]
        rcases hst with (hst | hst) | hst
        · exact ⟨(hone st (.inl hst)).1.wf, (hone st (.inl hst)).2⟩
        · exact hrest (.inl hst)
        · exact hrest (.inr hst)
      all_goals
        simp only [reduceCtorEq, or_false] at hst
        exact ⟨(hone st (.inl hst)).1.wf, (hone st (.inl hst)).2⟩

/-- Taking away a file leaves a file system. -/
theorem wf_remove {fs : HostFs} (hw : WellFormedHost fs) {a : HostPath} (ha : fs a ≠ some .dir) :
    WellFormedHost (fs.remove a) := by
  refine ⟨?_, fun q c hq => ?_⟩
  · unfold HostFs.remove
    rw [if_neg (fun e => ha (by rw [← e]; exact hw.1))]
    exact hw.1
  · unfold HostFs.remove at hq ⊢
    split at hq
    · exact absurd rfl hq
    · have hd := hw.2 q c hq
      rw [if_neg (fun e => ha (by rw [← e]; exact hd))]
      exact hd

theorem wf_rename {fs fs1 : HostFs} (hw : WellFormedHost fs) {a b : HostPath} (ha : fs a ≠ some .dir)
    (hr : fs.rename a b = .ok fs1) : WellFormedHost fs1 := by
  unfold HostFs.rename at hr
  split at hr
  · next n hn =>
    split at hr
    · cases hr
    · next hb =>
      simp only [not_or, Classical.not_not] at hb
      cases hr
      have hw1 : WellFormedHost (fs.remove a) := wf_remove hw ha
      by_cases hab : b = a
      · refine cast (congrArg WellFormedHost (funext fun q => ?_)) hw
        by_cases hq : q = b
        · rw [if_pos hq, hq, hab, hn]
        · rw [if_neg hq, if_neg (fun e => hq (by rw [e, hab]))]
      · have hpa : b.dropLast ≠ a := fun e => ha (by rw [← e]; exact hb.2)
        refine wf_at (fs := fs.remove a) (out := b) hw1 ?_ ?_ (fun q hq => ?_)
        · unfold HostFs.remove; rw [if_neg hab]; exact hb.1
        · unfold HostFs.remove; rw [if_neg hpa]; exact hb.2
        · unfold HostFs.remove; rw [if_neg hq]
  · cases hr

theorem packPathImage_wf {t : Tool} {faults : Faults} {fs st : HostFs} {src dst : HostPath} (hw : WellFormedHost fs)
    (h : st ∈ (packPathImage t faults fs src dst).1 ∨ (packPathImage t faults fs src dst).2 = .ok st) :
    WellFormedHost st := by
  have hp : fs dst ≠ some .dir ∧ fs dst.dropLast = some .dir := by
    unfold packPathImage at h
    split at h
    · next fs1 ho =>
      unfold packOpen at ho
      split at ho
      · cases ho
      · split at ho
        · cases ho
        · split at ho
          · cases ho
          · split at ho
            · cases ho
            · next hx => simpa only [not_or, Classical.not_not] using hx
    all_goals simp at h
  exact wf_at hw hp.1 hp.2 (packPathImage_seen.1 st h).2.1

theorem rewriteOne_wf {t : Tool} {dir : Option HostPath} {delete : Bool} {faults : Faults} {fs st : HostFs}
    {src : HostPath} (hw : WellFormedHost fs)
    (h : st ∈ (rewriteOne t dir delete faults fs src).1 ∨ (rewriteOne t dir delete faults fs src).2 = .ok st) :
    WellFormedHost st := by
  unfold rewriteOne at h
  split at h
  · next img hs =>
    split at h
    · next fs1 hr =>
      have w1 : WellFormedHost fs1 := wf_rename hw (by rw [hs]; nofun) hr
      have e1 := (rename_ok hr).1
      simp only at h
      have wp := fun st => packPathImage_wf (st := st) (t := t) (faults := faults) (src := oldPath src) (dst := rewriteDest dir src) w1
      split at h
      · next fs2 hp =>
        have hn : fs2 (oldPath src) ≠ some .dir := by
          obtain ⟨k1, k2, _⟩ := packPathImage_seen.1 fs2 (.inr hp)
          rw [k2 _ (fun e => k1 (by rw [e]; exact List.prefix_refl _)), e1, hs]
          nofun
        have wr := wf_remove (wp fs2 (.inr hp)) hn
        split at h
        · simp only [List.cons_append, List.mem_cons, List.mem_append, List.not_mem_nil, or_false, Res.ok.injEq] at h
          rcases h with (rfl | h | rfl) | rfl
          · exact w1
          · exact wp st (.inl h)
          · exact wr
          · exact wr
        · simp only [List.mem_cons, Res.ok.injEq] at h
          rcases h with (rfl | h) | rfl
          · exact w1
          · exact wp st (.inl h)
          · exact wp _ (.inr hp)
      all_goals
        simp only [List.mem_cons, reduceCtorEq, or_false] at h
        rcases h with rfl | h
        · exact w1
        · exact wp st (.inl h)
    all_goals simp at h
  · simp at h

theorem rewriteAll_leaves {t : Tool} {dir : Option HostPath} {delete : Bool} :
    ∀ (runs : List (HostPath × Faults)) {fs st : HostFs}, WellFormedHost fs →
    (st ∈ (rewriteAll t dir delete runs fs).1 ∨ (rewriteAll t dir delete runs fs).2 = .ok st) →
    WellFormedHost st ∧ ∀ q, (∀ x ∈ runs, q ∉ touched dir x.1) → st q = fs q := by
  intro runs
  induction runs with
  | nil =>
    intro fs st hw hst
    simp only [rewriteAll, List.not_mem_nil, Res.ok.injEq, false_or] at hst
    subst hst
    exact ⟨hw, fun _ _ => rfl⟩
  | cons x runs ih =>
    intro fs st hw hst
    obtain ⟨src, faults⟩ := x
    have hone : ∀ st, (st ∈ (rewriteOne t dir delete faults fs src).1 ∨ (rewriteOne t dir delete faults fs src).2 = .ok st) →
        WellFormedHost st ∧ ∀ q, (∀ x ∈ (src, faults) :: runs, q ∉ touched dir x.1) → st q = fs q :=
      fun st h => ⟨rewriteOne_wf hw h, fun q hq => rewriteOne_frame (hq _ List.mem_cons_self) h⟩
    simp only [rewriteAll] at hst
    split at hst
    · next fs' hr =>
      obtain ⟨k1, k2⟩ := hone fs' (.inr hr)
      simp only [List.mem_append] at hst
      have hrest : (st ∈ (rewriteAll t dir delete runs fs').1 ∨ (rewriteAll t dir delete runs fs').2 = .ok st) →
          WellFormedHost st ∧ ∀ q, (∀ x ∈ (src, faults) :: runs, q ∉ touched dir x.1) → st q = fs q := by
        intro hh
        obtain ⟨g1, g2⟩ := ih k1 hh
        exact ⟨g1, fun q hq => by rw [g2 q (fun x hx => hq x (by simp [hx])), k2 q hq]⟩
      rcases hst with (hst | hst) | hst
      · exact hone st (.inl hst)
      · exact hrest (.inl hst)
      · exact hrest (.inr hst)
    all_goals
      simp only [reduceCtorEq, or_false] at hst
      exact hone st (.inl hst)

/-- What one command leaves. -/
theorem ran_frame {c : Ciso} {h : Host} {cmd : Command} {fs fs' : HostFs} (hs : Sane h fs) (hr : Ran c h cmd fs fs') :
    WellFormedHost fs' ∧ ∀ q, fs q ≠ none → ¬ ToldToWrite c h cmd q → fs' q = fs q := by
  have inside : ∀ {dest : Str} {st : HostFs}, Sane h st ∧ ChangesOnlyInside h dest fs st →
      WellFormedHost st ∧ ∀ q, fs q ≠ none → ¬ placeOf h dest <+: q → st q = fs q := by
    intro dest st hx
    refine ⟨hx.1.wf, fun q hq hn => Classical.byContradiction fun hne => ?_⟩
    rcases hx.2 q hne with k | ⟨_, k, _⟩
    · exact hn k
    · exact hq k
  cases hr with
  | nothing => exact ⟨hs.wf, fun _ _ _ => rfl⟩
  | pack hst =>
    obtain ⟨k1, k2⟩ := pack_frame hs hst
    exact ⟨k1, fun q _ hn => k2 q hn⟩
  | unpack hn => exact inside (unpack_frame hs hn)
  | copyOut _ hn hb => exact inside (copyout_frame hs hn hb)
  | buildImage ha hst =>
    obtain ⟨k1, k2⟩ := build_frame hs ha hst
    exact ⟨k1, fun q _ hn => k2 q hn⟩
  | @compress source image t r most _ =>
    rcases hc : cmdCompressArgs h t r most c fs source (some image) with ⟨res, fs'⟩
    refine ⟨(compress_sane hs hc).wf, fun q _ hn => ?_⟩
    rcases cmdCompressArgs_changes hc with k | ⟨src, node, s, _, k2, _, k4⟩
    · rw [k]
    · have hd : s = image := by simpa [compressDest] using k2.symm
      subst hd
      rcases k4 q with k | ⟨_, _, k⟩
      · exact k
      · exact absurd k hn
  | imageSpec hst =>
    obtain ⟨k1, k2⟩ := imageSpec_frame hs hst
    exact ⟨k1, fun q _ hn => k2 q hn⟩
  | exisoCreate hm hst =>
    obtain ⟨k1, k2⟩ := createTasks_frame _ _ hs hm hst
    exact ⟨k1, fun q _ hn => k2 q hn⟩
  | exisoRewrite hm hst =>
    obtain ⟨k1, k2⟩ := rewriteAll_leaves _ hs.wf hst
    refine ⟨k1, fun q _ hn => k2 q (fun x hx ht => hn ⟨x.1, ?_, ?_⟩)⟩
    · rw [← hm]; exact List.mem_map.2 ⟨x, hx, rfl⟩
    · simpa [touched] using ht
  | other h1 h2 => exact ⟨h2, fun q _ hn => Classical.byContradiction fun hne => hn (h1 q hne)⟩

end Xdvdfs
