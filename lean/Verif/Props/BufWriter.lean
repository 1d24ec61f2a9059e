import Verif.Proof.BufWriter
import Verif.Props.Flat

/-!
# C63: images written through the command line tool's buffer

`packFile fs pol faults fuel` creates an output file, packs the source `fs` into it through a `BufWriter`, and closes
it; the result is the result that is reported, the file is what is left on disk, and `.buf` are the bytes that were
never written.
-/

namespace Xdvdfs.Props

open TabWriter Spec

theorem packFile_eq {fs : SourceFs} {pol : BufPolicy} {faults : Faults} {fuel : Nat} {r : Res Unit} {b : BufFile}
    (h : packFile fs pol faults fuel = (r, b)) :
    ∃ s', createImage (bufEnv fs pol faults) fuel ⟨⟨[], 0, [], 0⟩, []⟩ = (r, s') ∧ b = dropBuf faults s'.dev := by
  unfold packFile at h
  simp only [Prod.mk.injEq] at h
  exact ⟨_, Prod.ext h.1 rfl, h.2.symm⟩

/-- The file of a fault-free pack without a buffer. -/
theorem plain_pack {fs : SourceFs} {fuel : Nat} (hP : (createP fs.readDir fs.pathToString fuel).res = .ok ())
    (hok : ∀ o ∈ (createP fs.readDir fs.pathToString fuel).ops, OpOK fs o) :
    ∃ s', createImage (fileEnv fs (fun _ => none)) fuel ⟨⟨[], []⟩, []⟩ = (.ok (), s') ∧
      s'.dev.img = applyTrace [] ((createP fs.readDir fs.pathToString fuel).ops.flatMap (opWrites fs) ++
        padOf (applyTrace [] ((createP fs.readDir fs.pathToString fuel).ops.flatMap (opWrites fs)))) ∧
      s'.log = (createP fs.readDir fs.pathToString fuel).ops.flatMap opReports ++ [.finishedPacking] := by
  have h := (fileEnv_faultless fs).createImage fuel ⟨⟨[], []⟩, []⟩
  have hres : opResult fs (createP fs.readDir fs.pathToString fuel).ops = .ok () := by
    generalize (createP fs.readDir fs.pathToString fuel).ops = ops at hok
    induction ops with
    | nil => rfl
    | cons o ops ih =>
      have ih := ih (fun o ho => hok o (by simp [ho]))
      cases o with
      | copy p out n =>
        obtain ⟨k, hk⟩ := hok _ (List.mem_cons_self ..)
        simp only [opResult, hk, ih]
      | _ => exact ih
  rw [hres, hP] at h
  rcases hc : createImage (fileEnv fs (fun _ => none)) fuel ⟨⟨[], []⟩, []⟩ with ⟨r, s'⟩
  rw [hc] at h
  simp only at h
  subst h
  obtain ⟨h1, h2⟩ := createImage_trace fs _ fuel [] hc
  rcases h2 with ⟨h2, _⟩ | ⟨_, _, Q, h3, _, h4⟩
  · exact absurd rfl h2
  · obtain ⟨k1, k2⟩ := h4 rfl
    exact ⟨s', rfl, by rw [h1, h3, k1], k2⟩

/-- C63 (part): if the tool reports success and every byte given to the buffer reached the file, then the file is
byte for byte the one that packing straight into a file without faults produces, so everything proved about those
holds for it; in particular it holds the source tree, and its length is a multiple of 64 KiB. -/
theorem C63_complete_partial {fs : SourceFs} {pol : BufPolicy} {faults : Faults} {fuel : Nat} {b : BufFile}
    (h : packFile fs pol faults fuel = (.ok (), b)) (hflushed : b.buf = []) :
    (∃ s', createImage (fileEnv fs (fun _ => none)) fuel ⟨⟨[], []⟩, []⟩ = (.ok (), s') ∧ s'.dev.img = b.img) ∧
    (0 < b.img.length ∧ b.img.length % 65536 = 0) ∧
    ∀ content, Bounded fs → FaithfulTo fs content → HoldsTree (fileDev b.img) fs.readDir content := by
  obtain ⟨s1, hc, rfl⟩ := packFile_eq h
  obtain ⟨r, s', e, _, h2⟩ := createImage_buf fs pol faults fuel
  rw [hc] at e
  cases e
  obtain ⟨k1, k2, k3, _, _⟩ := h2 rfl
  obtain ⟨s2, g1, g2, _⟩ := plain_pack k1 k2
  have himg : s2.dev.img = (dropBuf faults s1.dev).img := by
    rw [g2]; exact ((flushBuf_spec faults k3).1.empty hflushed).symm
  refine ⟨⟨s2, g1, himg⟩, ?_, fun content hb hf => ?_⟩
  · rw [← himg]; exact C35_length_multiple g1
  · rw [← himg]; exact pack_success hb hf g1

/-- C63: without faults, the buffer is not noticeable: the result is that of packing straight into the file, and on
success so is the file. -/
theorem C63_buffer_unnoticed (fs : SourceFs) (pol : BufPolicy) (fuel : Nat) :
    (packFile fs pol (fun _ => none) fuel).1 = (createImage (fileEnv fs (fun _ => none)) fuel ⟨⟨[], []⟩, []⟩).1 ∧
    (packFile fs pol (fun _ => none) fuel).2.buf = [] := by
  constructor
  · show (createImage (bufEnv fs pol (fun _ => none)) fuel _).1 = _
    rw [(bufEnv_faultless fs pol).createImage, (fileEnv_faultless fs).createImage]
  · show (flushBuf (fun _ => none) _).2.buf = []
    unfold flushBuf
    split
    · assumption
    · rfl

/-- How a run that was stopped ends. -/
theorem tool_end (fs : SourceFs) (pol : BufPolicy) (faults : Faults) (fuel : Nat) (img : Bytes)
    (himg : img = (createImage (bufEnv fs pol faults) fuel ⟨⟨[], 0, [], 0⟩, []⟩).2.dev.img ∨
      img = (packFile fs pol faults fuel).2.img) :
    ∃ W, img = applyTrace [] W ∧ PackEnd fs fuel [] (.err .io) ⟨⟨img, W⟩, []⟩ := by
  obtain ⟨r, s', e, ⟨T, hT, hW⟩, _⟩ := createImage_buf fs pol faults fuel
  have hS : ∃ b, Stopped [] T b ∧ b.img = img := by
    rcases himg with rfl | rfl
    · exact ⟨s'.dev, hT, by rw [e]⟩
    · exact ⟨dropBuf faults s'.dev, hT.drop faults, by unfold packFile; rw [e]⟩
  obtain ⟨b, hb', rfl⟩ := hS
  obtain ⟨W, h1, h2⟩ := hb'.torn
  have hR := hW W h1
  refine ⟨W, h2, ?_⟩
  apply packEnd_of_trace
  rcases hR with hR | ⟨k1, k2, Q, k3, k4⟩
  · exact .inl ⟨by simp, hR⟩
  · exact .inr ⟨k1, k2, Q, k3, k4, fun h => (by cases h)⟩

/-- C36 for the command line tool: at whatever write it is stopped, whether or not the rest of the buffer is still
written, the file either does not open, or holds the complete source tree. -/
theorem C36_interrupted_tool {fs : SourceFs} {content : Path → Bytes} (hb : Bounded fs) (hf : FaithfulTo fs content)
    (pol : BufPolicy) (faults : Faults) (fuel : Nat) (img : Bytes)
    (himg : img = (createImage (bufEnv fs pol faults) fuel ⟨⟨[], 0, [], 0⟩, []⟩).2.dev.img ∨
      img = (packFile fs pol faults fuel).2.img) :
    (∀ v, readVolume (fileDev img) ≠ .ok v) ∨ HoldsTree (fileDev img) fs.readDir content := by
  obtain ⟨W, h2, hE⟩ := tool_end fs pol faults fuel img himg
  exact hE.crash (s' := ⟨⟨img, W⟩, []⟩) hb hf h2

/-- The last flush fails: what is lost. -/
theorem silent_loss {fs : SourceFs} (hb : Bounded fs) (pol : BufPolicy)
    (hcap : 65536 ≤ pol.cap) {fuel : Nat} {s' : PackState ImgFile}
    (hok : createImage (fileEnv fs (fun _ => none)) fuel ⟨⟨[], []⟩, []⟩ = (.ok (), s')) :
    ∃ faults b, packFile fs pol faults fuel = (.ok (), b) ∧
      (¬ (applyTrace [] ((createP fs.readDir fs.pathToString fuel).ops.flatMap (opWrites fs))).length % (32 * 2048) > 0 →
        (∀ v, readVolume (fileDev b.img) ≠ .ok v) ∧ b.img.length =
        (applyTrace [] ((createP fs.readDir fs.pathToString fuel).ops.flatMap (opWrites fs))).length) ∧
      ((applyTrace [] ((createP fs.readDir fs.pathToString fuel).ops.flatMap (opWrites fs))).length % (32 * 2048) > 0 →
        b.img.length % (32 * 2048) > 0) := by
  -- the run without faults
  have hres := (C63_buffer_unnoticed fs pol fuel).1
  rw [hok] at hres
  obtain ⟨r, s1, e, _, h2⟩ := createImage_buf fs pol (fun _ => none) fuel
  have hr : r = .ok () := by
    have : (packFile fs pol (fun _ => none) fuel).1 = r := by unfold packFile; rw [e]
    rw [← this, hres]
  subst hr
  obtain ⟨k1, k2, _, ⟨T0, off, d, k3, k4, k5, k6⟩, _⟩ := h2 rfl
  obtain ⟨q1, q2⟩ := k6 (by omega)
  -- the last flush fails
  let faults : Faults := fun n => if n = s1.dev.n then some 0 else none
  have hst := (createImage_stable fs pol fuel ⟨⟨[], 0, [], 0⟩, []⟩) (fun _ => none)
  have e' : createImage (bufEnv fs pol faults) fuel ⟨⟨[], 0, [], 0⟩, []⟩ = (.ok (), s1) := by
    rw [← e]
    apply hst.2
    intro n hn
    simp only [e] at hn
    show (if n = s1.dev.n then some 0 else none) = none
    rw [if_neg (by omega)]
  have hdrop : (dropBuf faults s1.dev).img = s1.dev.img := by
    unfold dropBuf flushBuf
    rw [if_neg (by rw [q1]; exact k4)]
    have : faults s1.dev.n = some 0 := by show (if _ = _ then _ else _) = _; rw [if_pos rfl]
    simp only [rawWrite, this, List.take_zero, writeAt_nil]
  refine ⟨faults, dropBuf faults s1.dev, by unfold packFile; rw [e'], ?_⟩
  rw [hdrop, q2]
  -- which write was lost
  by_cases hp : (applyTrace [] ((createP fs.readDir fs.pathToString fuel).ops.flatMap (opWrites fs))).length % (32 * 2048) > 0
  · -- the padding
    rw [padOf_pos hp] at k3
    have hT0 : T0 = (createP fs.readDir fs.pathToString fuel).ops.flatMap (opWrites fs) :=
      ((List.append_inj' k3 rfl).1).symm
    subst hT0
    exact ⟨fun h => by omega, fun _ => hp⟩
  · -- the descriptor
    rw [padOf_neg hp, List.append_nil] at k3
    refine ⟨fun _ => ?_, fun h => absurd h hp⟩
    have hlow : (∀ v, readVolume (fileDev (applyTrace [] T0)) ≠ .ok v) ∧ (applyTrace [] T0).length =
        (applyTrace [] ((createP fs.readDir fs.pathToString fuel).ops.flatMap (opWrites fs))).length := by
      rcases createP_inv fs.readDir fs.pathToString fuel with
        ⟨m1, m2⟩ | ⟨D, M, rootW, rootSize, next, recs, n', rest, hS, ⟨m1, rfl, m3, m4⟩ | ⟨m1, m2⟩⟩
      · exact absurd k1 m2
      · rw [m4, List.flatMap_append] at k3
        have hT0 : T0 = (planOps fs.pathToString D recs).flatMap (opWrites fs) :=
          ((List.append_inj' k3 rfl).1).symm
        rw [hT0]
        refine ⟨readVolume_zero (fun b hb' => lowZero_data hS hb (Torn.refl _) _ b (by decide) hb'), ?_⟩
        have hl := hS.data_length []
        have hf : (planOps fs.pathToString D recs ++ [descOp rootSize]).flatMap (opWrites fs) =
            (planOps fs.pathToString D recs).flatMap (opWrites fs) ++ [(32 * 2048, rootDesc 33 rootSize)] := by
          rw [List.flatMap_append]; rfl
        rw [m4, hf, applyTrace_append, applyTrace_one, writeAt_length, rootDesc_length]
        generalize (applyTrace [] ((planOps fs.pathToString D recs).flatMap (opWrites fs))).length = X at hl
        split <;> omega
      · exact absurd k1 m1
    exact hlow

/-- C63 is false: for every source that packs, with any buffer of at least 64 KiB, there is a fault for which the tool
reports success although the file does not hold the tree, or does not have its full length: the error of the last
flush, made when the buffer is dropped, is ignored. -/
theorem C63_complete_false {fs : SourceFs} {content : Path → Bytes} (hb : Bounded fs) (pol : BufPolicy)
    (hcap : 65536 ≤ pol.cap) {fuel : Nat} {s' : PackState ImgFile}
    (hok : createImage (fileEnv fs (fun _ => none)) fuel ⟨⟨[], []⟩, []⟩ = (.ok (), s')) :
    ∃ faults b, packFile fs pol faults fuel = (.ok (), b) ∧
      ¬ (HoldsTree (fileDev b.img) fs.readDir content ∧ b.img.length % 65536 = 0) := by
  obtain ⟨faults, b, h1, h2, h3⟩ := silent_loss hb pol hcap hok
  refine ⟨faults, b, h1, ?_⟩
  rintro ⟨⟨vol, hv, _⟩, hl⟩
  by_cases hp : (applyTrace [] ((createP fs.readDir fs.pathToString fuel).ops.flatMap (opWrites fs))).length % (32 * 2048) > 0
  · have := h3 hp; omega
  · exact (h2 hp).1 vol hv

/-- The place and length of what an operation writes. -/
def opShape : Op → Option (Nat × Nat)
  | .report _ => none
  | .write off d => some (off, d.length)
  | .copy _ o n => some (o, n)

/-- A source with one file of 30 sectors. -/
def fullFs : SourceFs := flatFs [(['f'], List.replicate 61440 7)]

def fullDir : ReadDir := fun p => if p = [] then .ok [⟨['f'], false, 61440⟩] else .err .io

theorem full_readDir : fullFs.readDir = fullDir := by
  funext p
  show (if p = [] then _ else _) = (if p = [] then _ else _)
  simp only [List.map_cons, List.map_nil, List.length_replicate]

set_option maxRecDepth 20000 in
theorem full_shape : (createP fullDir slashPath 1).ops.filterMap opShape =
    [(67584, 2048), (69632, 61440), (65536, 2048)] := by decide +kernel

def fullCopies : Op → Bool
  | .copy p _ n => p == [['f']] && n == 61440
  | _ => true

set_option maxRecDepth 20000 in
theorem full_copies : (createP fullDir slashPath 1).ops.all fullCopies = true := by decide +kernel

theorem full_copy : fullFs.copy [['f']] 0 61440 = ([List.replicate 61440 7], .ok 61440) := by
  show ([slice (List.replicate 61440 7) 0 61440], _) = _
  simp only [slice, List.drop_zero]
  rw [List.take_of_length_le (by rw [List.length_replicate]; exact Nat.le_refl _)]

theorem full_writes : ∀ {ops : List Op}, ops.all fullCopies = true →
    (ops.flatMap (opWrites fullFs)).map (fun w => (w.1, w.2.length)) = ops.filterMap opShape := by
  intro ops
  induction ops with
  | nil => intro _; rfl
  | cons o ops ih =>
    intro h
    simp only [List.all_cons, Bool.and_eq_true] at h
    have ih := ih h.2
    rw [List.flatMap_cons, List.map_append, ih]
    cases o with
    | report p => rfl
    | write off d => rfl
    | copy p out n =>
      have h1 := h.1
      simp only [fullCopies, Bool.and_eq_true, beq_iff_eq] at h1
      obtain ⟨rfl, rfl⟩ := h1
      simp only [opWrites, full_copy, chunksAt, List.map_cons, List.map_nil, List.length_replicate]
      rfl

theorem applyTrace_len : ∀ (W : List (Nat × Bytes)) (img : Bytes), (∀ w ∈ W, w.2.length ≠ 0) →
    (applyTrace img W).length = (W.map (fun w => (w.1, w.2.length))).foldl (fun n x => max n (x.1 + x.2)) img.length := by
  intro W
  induction W with
  | nil => intro img _; rfl
  | cons w W ih =>
    intro img h
    have hw := h w (by simp)
    show (applyTrace (writeAt img w.1 w.2) W).length = _
    rw [ih _ (fun x hx => h x (by simp [hx])), writeAt_length, if_neg (by intro he; rw [he] at hw; exact hw rfl)]
    rfl

theorem full_length : (applyTrace [] ((createP fullFs.readDir fullFs.pathToString 1).ops.flatMap
    (opWrites fullFs))).length = 131072 := by
  rw [full_readDir]
  show (applyTrace [] ((createP fullDir slashPath 1).ops.flatMap (opWrites fullFs))).length = 131072
  have hm := full_writes full_copies
  rw [full_shape] at hm
  rw [applyTrace_len, hm]
  · rfl
  · intro w hw
    have : (w.1, w.2.length) ∈ [(67584, 2048), (69632, 61440), (65536, 2048)] := by
      rw [← hm]; exact List.mem_map_of_mem hw
    simp only [List.mem_cons, Prod.mk.injEq, List.not_mem_nil, or_false] at this
    omega

theorem full_flatOk : FlatOk [(['f'], List.replicate 61440 (7 : UInt8))] := by
  refine ⟨?_, ?_, ?_, ?_⟩
  · exact List.pairwise_singleton _ _
  · intro x hx
    rw [List.mem_singleton] at hx
    subst hx
    exact ⟨by decide, by intro c hc; rw [List.mem_singleton] at hc; subst hc; exact ⟨0x66, by decide, by decide⟩⟩
  · intro x hx
    rw [List.mem_singleton] at hx
    subst hx
    simp only [List.length_replicate]
    omega
  · exact Nat.succ_le_of_lt (by decide)

theorem full_bounded : Bounded fullFs := by unfold fullFs; exact flat_bounded _

theorem full_packs : ∃ s', createImage (fileEnv fullFs (fun _ => none)) 1 ⟨⟨[], []⟩, []⟩ = (.ok (), s') := by
  unfold fullFs; exact flat_packs full_flatOk []

/-- C63 is false: packing a directory with one file of 61440 bytes through the tool's buffer, there is a fault for
which the tool reports success and leaves a file of the right length that is not an image: it does not open. -/
theorem C63_unreadable_false (early : BufFile → Bytes → Bool) :
    ∃ faults b, packFile fullFs (cliPolicy early) faults 1 = (.ok (), b) ∧ b.img.length = 131072 ∧
      ∀ v, readVolume (fileDev b.img) ≠ .ok v := by
  obtain ⟨s', h⟩ := full_packs
  obtain ⟨faults, b, k1, k2, _⟩ := silent_loss full_bounded (cliPolicy early)
    (by show 65536 ≤ 1024 * 1024; omega) h
  have hl : (applyTrace [] ((createP fullFs.readDir fullFs.pathToString 1).ops.flatMap (opWrites fullFs))).length %
      (32 * 2048) = 0 := by rw [full_length]
  obtain ⟨m1, m2⟩ := k2 (fun h => Nat.ne_of_gt h hl)
  exact ⟨faults, b, k1, m2.trans full_length, m1⟩

/-- The hypotheses of C63 hold: the sample packs through the tool's buffer and nothing is left in it. -/
example (early : BufFile → Bytes → Bool) : ∃ b, packFile sampleFs' (cliPolicy early) (fun _ => none) 2 = (.ok (), b) ∧
    b.buf = [] ∧ HoldsTree (fileDev b.img) sampleFs'.readDir sampleContent := by
  obtain ⟨s', h⟩ := sample_packs []
  obtain ⟨h1, h2⟩ := C63_buffer_unnoticed sampleFs' (cliPolicy early) 2
  rw [h] at h1
  rcases hx : packFile sampleFs' (cliPolicy early) (fun _ => none) 2 with ⟨r, b⟩
  rw [hx] at h1 h2
  simp only at h1 h2
  subst h1
  exact ⟨b, rfl, h2, (C63_complete_partial hx h2).2.2 _ sample'_bounded sample'_faithful⟩

end Xdvdfs.Props
