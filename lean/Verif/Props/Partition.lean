import Verif.Spec.Partition
import Verif.Props.ReadCli

/-!
# Properties C127, C128: a partition of a disc used like a file
-/

namespace Xdvdfs.Props

open Xdvdfs Spec TabWriter

theorem writeAt_behind (pre x : Bytes) (off : Nat) (d : Bytes) :
    writeAt (pre ++ x) (off + pre.length) d = pre ++ writeAt x off d := by
  unfold writeAt
  split
  · rfl
  · rw [List.take_append, List.take_of_length_le (by omega : pre.length ≤ off + pre.length)]
    rw [show off + pre.length - pre.length = off by omega]
    rw [show off + pre.length - (pre ++ x).length = off - x.length by simp; omega]
    rw [show off + pre.length + d.length = pre.length + (off + d.length) by omega]
    rw [List.drop_append, List.drop_eq_nil_of_le (by omega : pre.length ≤ pre.length + (off + d.length))]
    rw [show pre.length + (off + d.length) - pre.length = off + d.length by omega]
    simp

/-- A run on a partition and the run on a file of its own. -/
structure Behind (pre : Bytes) (a b : ImgFile) : Prop where
  img : a.img = pre ++ b.img
  len : a.trace.length = b.trace.length

theorem partWrite_behind {faults : Faults} {pre : Bytes} {a b : ImgFile} (h : Behind pre a b) (off : Nat) (d : Bytes) :
    (partWrite faults pre.length off d a).1 = (fileWrite faults off d b).1 ∧
    Behind pre (partWrite faults pre.length off d a).2 (fileWrite faults off d b).2 := by
  unfold partWrite fileWrite
  rw [h.len]
  cases faults b.trace.length with
  | none => exact ⟨rfl, by simp only [h.img, writeAt_behind], by simp [h.len]⟩
  | some m => exact ⟨rfl, by simp only [h.img, writeAt_behind], by simp [h.len]⟩

theorem partChunks_behind {faults : Faults} {pre : Bytes} : ∀ (cs : List Bytes) (off : Nat) {a b : ImgFile},
    Behind pre a b →
    (partChunks faults pre.length off cs a).1 = (writeChunks faults off cs b).1 ∧
    Behind pre (partChunks faults pre.length off cs a).2 (writeChunks faults off cs b).2 := by
  intro cs
  induction cs with
  | nil => intro off a b h; exact ⟨rfl, h⟩
  | cons c cs ih =>
    intro off a b h
    obtain ⟨h1, h2⟩ := partWrite_behind (faults := faults) h off c
    simp only [partChunks, writeChunks]
    rcases hp : partWrite faults pre.length off c a with ⟨r, a1⟩
    rcases hf : fileWrite faults off c b with ⟨r', b1⟩
    rw [hp, hf] at h1 h2
    simp only at h1 h2
    subst h1
    cases r with
    | ok u => exact ih _ h2
    | err e => exact ⟨rfl, h2⟩
    | panic => exact ⟨rfl, h2⟩
    | hang => exact ⟨rfl, h2⟩

/-- The two runs: also what was reported is the same. -/
structure Beside2 (pre : Bytes) (s t : PackState ImgFile) : Prop where
  dev : Behind pre s.dev t.dev
  log : s.log = t.log

theorem op_behind {fs : SourceFs} {faults : Faults} {pre : Bytes} (o : Op) {s t : PackState ImgFile}
    (h : Beside2 pre s t) :
    (o.run (partEnv fs faults pre.length) s).1 = (o.run (fileEnv fs faults) t).1 ∧
    Beside2 pre (o.run (partEnv fs faults pre.length) s).2 (o.run (fileEnv fs faults) t).2 := by
  cases o with
  | report p => exact ⟨rfl, h.dev, by simp [Op.run, PM.report, h.log]⟩
  | write off d => exact ⟨(partWrite_behind h.dev off d).1, (partWrite_behind h.dev off d).2, h.log⟩
  | copy p out n =>
    obtain ⟨h1, h2⟩ := partChunks_behind (faults := faults) (fs.copy p 0 n).1 out h.dev
    have h3 := h.log
    simp only [Op.run, PM.bind_def, PM.onDev, fileEnv, partEnv, PM.pure_def]
    rcases hp : partChunks faults pre.length out (fs.copy p 0 n).1 s.dev with ⟨r, a1⟩
    rcases hf : writeChunks faults out (fs.copy p 0 n).1 t.dev with ⟨r', b1⟩
    rw [hp, hf] at h1 h2
    simp only at h1 h2
    subst h1
    cases r with
    | ok u => simp only; cases (fs.copy p 0 n).2 <;> exact ⟨rfl, h2, h3⟩
    | err e => exact ⟨rfl, h2, h3⟩
    | panic => exact ⟨rfl, h2, h3⟩
    | hang => exact ⟨rfl, h2, h3⟩

theorem runOps_behind {fs : SourceFs} {faults : Faults} {pre : Bytes} : ∀ (ops : List Op) {s t : PackState ImgFile},
    Beside2 pre s t →
    (runOps (partEnv fs faults pre.length) ops s).1 = (runOps (fileEnv fs faults) ops t).1 ∧
    Beside2 pre (runOps (partEnv fs faults pre.length) ops s).2 (runOps (fileEnv fs faults) ops t).2 := by
  intro ops
  induction ops with
  | nil => intro s t h; exact ⟨rfl, h⟩
  | cons o ops ih =>
    intro s t h
    obtain ⟨h1, h2⟩ := op_behind (fs := fs) (faults := faults) o h
    simp only [runOps, PM.bind_def]
    rcases hp : o.run (partEnv fs faults pre.length) s with ⟨r, s1⟩
    rcases hf : o.run (fileEnv fs faults) t with ⟨r', t1⟩
    rw [hp, hf] at h1 h2
    simp only at h1 h2
    subst h1
    cases r with
    | ok u => exact ih h2
    | err e => exact ⟨rfl, h2⟩
    | panic => exact ⟨rfl, h2⟩
    | hang => exact ⟨rfl, h2⟩

/-- A write of zeros at the end, and one `n` bytes behind the end. -/
theorem writeAt_zeros_end (x : Bytes) (m n : Nat) :
    ∃ k, (k = 0 ∨ k = n) ∧ (0 < m → k = n) ∧
      writeAt x (x.length + n) (List.replicate m 0) = writeAt x x.length (List.replicate m 0) ++ List.replicate k 0 := by
  cases m with
  | zero => exact ⟨0, Or.inl rfl, by simp, by simp [writeAt]⟩
  | succ m =>
    refine ⟨n, Or.inr rfl, fun _ => rfl, ?_⟩
    unfold writeAt
    rw [if_neg (by simp), if_neg (by simp), List.take_of_length_le (by omega : x.length ≤ x.length + n),
      List.take_of_length_le (Nat.le_refl _), List.drop_eq_nil_of_le (by omega), List.drop_eq_nil_of_le (by omega)]
    rw [show x.length + n - x.length = n by omega, Nat.sub_self]
    simp only [List.replicate_zero, List.append_nil, List.append_assoc, List.nil_append, List.replicate_append_replicate]
    rw [Nat.add_comm]

theorem padImage_behind {fs : SourceFs} {faults : Faults} {pre : Bytes} (hpre : pre.length % 65536 = 0)
    {s t : PackState ImgFile} (h : Beside2 pre s t) :
    (padImage (partEnv fs faults pre.length) s).1 = (padImage (fileEnv fs faults) t).1 ∧
    (padImage (partEnv fs faults pre.length) s).2.log = (padImage (fileEnv fs faults) t).2.log ∧
    ∃ k, (k = 0 ∨ k = pre.length) ∧
      ((∀ i, faults i = none) → t.dev.img.length % 65536 ≠ 0 → k = pre.length) ∧
      (padImage (partEnv fs faults pre.length) s).2.dev.img =
        pre ++ (padImage (fileEnv fs faults) t).2.dev.img ++ List.replicate k 0 := by
  have hl : s.dev.img.length = pre.length + t.dev.img.length := by rw [h.dev.img, List.length_append]
  have hm : s.dev.img.length % (32 * 2048) = t.dev.img.length % (32 * 2048) := by omega
  unfold padImage
  simp only [PM.bind_def, partEnv, fileEnv, devLen, hm]
  split
  · next hp =>
    rw [hl]
    unfold PM.onDev partWrite fileWrite
    rw [h.dev.len, h.dev.img]
    cases hfl : faults t.dev.trace.length with
    | none =>
      obtain ⟨k, k1, k2, k3⟩ := writeAt_zeros_end t.dev.img (32 * 2048 - t.dev.img.length % (32 * 2048)) pre.length
      refine ⟨rfl, h.log, k, k1, fun _ _ => k2 (by omega), ?_⟩
      show writeAt (pre ++ t.dev.img) _ _ = pre ++ writeAt t.dev.img _ _ ++ _
      rw [writeAt_behind, List.append_assoc, ← k3, Nat.add_comm t.dev.img.length]
    | some m =>
      simp only [List.take_replicate]
      obtain ⟨k, k1, k2, k3⟩ := writeAt_zeros_end t.dev.img
        (min m (32 * 2048 - t.dev.img.length % (32 * 2048))) pre.length
      refine ⟨trivial, h.log, k, k1, fun hn => by simp [hn] at hfl, ?_⟩
      rw [writeAt_behind, List.append_assoc, ← k3, Nat.add_comm t.dev.img.length]
  · refine ⟨rfl, h.log, 0, Or.inl rfl, fun _ hn => by omega, ?_⟩
    simp only [PM.pure_def, h.dev.img, List.replicate_zero, List.append_nil]

/-- Packing into a partition and packing into a file of its own. -/
theorem part_pack (fs : SourceFs) (faults : Faults) (fuel : Nat) {pre : Bytes} (hpre : pre.length % 65536 = 0)
    (part0 : Bytes) (log : List Progress) :
    (createImage (partEnv fs faults pre.length) fuel ⟨⟨pre ++ part0, []⟩, log⟩).1 =
      (createImage (fileEnv fs faults) fuel ⟨⟨part0, []⟩, log⟩).1 ∧
    (createImage (partEnv fs faults pre.length) fuel ⟨⟨pre ++ part0, []⟩, log⟩).2.log =
      (createImage (fileEnv fs faults) fuel ⟨⟨part0, []⟩, log⟩).2.log ∧
    ∃ k, (k = 0 ∨ k = pre.length) ∧
      ((∀ i, faults i = none) → (createImage (fileEnv fs faults) fuel ⟨⟨part0, []⟩, log⟩).1 = .ok () →
        (applyTrace part0 ((createP fs.readDir fs.pathToString fuel).ops.flatMap (opWrites fs))).length % 65536 ≠ 0 →
        k = pre.length) ∧
      (createImage (partEnv fs faults pre.length) fuel ⟨⟨pre ++ part0, []⟩, log⟩).2.dev.img =
        pre ++ (createImage (fileEnv fs faults) fuel ⟨⟨part0, []⟩, log⟩).2.dev.img ++ List.replicate k 0 := by
  rw [createImage_eq, createImage_eq]
  change let A := ((createP fs.readDir fs.pathToString fuel).run (partEnv fs faults pre.length) >>= fun _ =>
      padImage (partEnv fs faults pre.length) >>= fun _ => PM.report .finishedPacking) ⟨⟨pre ++ part0, []⟩, log⟩
    let B := ((createP fs.readDir fs.pathToString fuel).run (fileEnv fs faults) >>= fun _ =>
      padImage (fileEnv fs faults) >>= fun _ => PM.report .finishedPacking) ⟨⟨part0, []⟩, log⟩
    A.1 = B.1 ∧ A.2.log = B.2.log ∧ ∃ k, (k = 0 ∨ k = pre.length) ∧
      ((∀ i, faults i = none) → B.1 = .ok () →
        (applyTrace part0 ((createP fs.readDir fs.pathToString fuel).ops.flatMap (opWrites fs))).length % 65536 ≠ 0 →
        k = pre.length) ∧ A.2.dev.img = pre ++ B.2.dev.img ++ List.replicate k 0
  generalize createP fs.readDir fs.pathToString fuel = P
  obtain ⟨g1, g2⟩ := runOps_behind (fs := fs) (faults := faults) (pre := pre) P.ops
    (s := ⟨⟨pre ++ part0, []⟩, log⟩) (t := ⟨⟨part0, []⟩, log⟩) ⟨⟨rfl, rfl⟩, rfl⟩
  obtain ⟨W1, h1, h2, h3, h4⟩ := runOps_spec fs faults P.ops ⟨⟨part0, []⟩, log⟩
  simp only [PM.bind_def, Pl.run]
  rcases hr : runOps (partEnv fs faults pre.length) P.ops ⟨⟨pre ++ part0, []⟩, log⟩ with ⟨r, s1⟩
  rcases hf : runOps (fileEnv fs faults) P.ops ⟨⟨part0, []⟩, log⟩ with ⟨r', t1⟩
  rw [hr, hf] at g1 g2
  rw [hf] at h2 h4
  simp only at g1 g2 h2 h4
  subst g1
  have hbad : s1.dev.img = pre ++ t1.dev.img ++ List.replicate 0 0 := by simp [g2.dev.img]
  cases r with
  | err e => exact ⟨rfl, g2.log, 0, Or.inl rfl, nofun, hbad⟩
  | panic => exact ⟨rfl, g2.log, 0, Or.inl rfl, nofun, hbad⟩
  | hang => exact ⟨rfl, g2.log, 0, Or.inl rfl, nofun, hbad⟩
  | ok u =>
    cases hres : P.res with
    | err e => exact ⟨rfl, g2.log, 0, Or.inl rfl, nofun, hbad⟩
    | panic => exact ⟨rfl, g2.log, 0, Or.inl rfl, nofun, hbad⟩
    | hang => exact ⟨rfl, g2.log, 0, Or.inl rfl, nofun, hbad⟩
    | ok v =>
      simp only [PM.lift]
      obtain ⟨p1, p2, k, p3, p4, p5⟩ := padImage_behind (fs := fs) (faults := faults) hpre g2
      rcases ha : padImage (partEnv fs faults pre.length) s1 with ⟨ra, s2⟩
      rcases hb : padImage (fileEnv fs faults) t1 with ⟨rb, t2⟩
      rw [ha, hb] at p1 p2 p5
      simp only at p1 p2 p5
      subst p1
      rw [h2, (h4 rfl).1] at p4
      cases ra with
      | ok w => exact ⟨rfl, by simp [PM.report, p2], k, p3, fun q _ => p4 q, p5⟩
      | err e => exact ⟨rfl, p2, k, p3, nofun, p5⟩
      | panic => exact ⟨rfl, p2, k, p3, nofun, p5⟩
      | hang => exact ⟨rfl, p2, k, p3, nofun, p5⟩

/-- Bytes that are added at the end of an image leave the tree readable. -/
theorem pack_success_more {fs : SourceFs} {faults : Faults} {fuel : Nat} {img0 : Bytes} {s' : PackState ImgFile}
    {content : Path → Bytes} (hb : Bounded fs) (hf : FaithfulTo fs content)
    (h : createImage (fileEnv fs faults) fuel ⟨⟨img0, []⟩, []⟩ = (.ok (), s')) (more : Bytes) {dev : Dev}
    (hd : AgreeLow dev (fileDev (s'.dev.img ++ more))) : HoldsTree dev fs.readDir content := by
  obtain ⟨h1, h2⟩ := pack_end fs faults fuel img0 h
  cases h2 with
  | early h2 _ => exact absurd rfl h2
  | data _ h2 _ => exact absurd rfl h2
  | desc _ h2 _ _ _ => exact absurd rfl h2
  | @pad D M rootW rootSize next recs n' P hS hD hok htr hP _ =>
    have hat : ∀ w ∈ (planOps fs.pathToString D recs).flatMap (opWrites fs) ++
        [(32 * 2048, rootDesc 33 rootSize)], At (s'.dev.img ++ more) w.1 w.2 := by
      intro w hw i hi
      have := pad_at hS hb (torn_pad hP) w hw i hi
      rw [← htr, ← h1] at this
      rw [← this, List.getElem?_append_left]
      rw [List.getElem?_eq_getElem hi] at this
      exact (List.getElem?_eq_some_iff.1 this).1
    have hI := (hS.img hf hok (im := s'.dev.img ++ more) (fun w hw => hat w (by simp [hw]))).agree hd
    refine hI.holdsTree hS.allDistinct (l0 := rootListing rootSize) (by simp [placedAll]) rfl hS.walked
      (tables_ok hS.walked hS.tables).2.2.1 ?_
    have hh := (hat (32 * 2048, rootDesc 33 rootSize) (by simp)).holds
    rw [Nat.mul_comm]
    intro o k hk
    have hlen : o + k ≤ 2048 := by rw [← rootDesc_length 33 rootSize]; exact hk
    rw [hd _ _ (by omega)]
    exact hh o k hk

theorem discPartitions_aligned {b : Nat} (h : b ∈ discPartitions) : b % 65536 = 0 ∧ b < 2 ^ 44 := by
  unfold discPartitions at h
  simp only [List.mem_cons, List.not_mem_nil, or_false] at h
  rcases h with rfl | rfl | rfl | rfl <;> decide

/-- C127: packing into a partition of a disc ends as packing into a file of its own ends, reports the same, leaves what
is in front of the partition as it was, and puts into the partition what the file would contain, whatever fails.
Missing for the full property: the partition may be followed by zeros, as many as there are bytes in front of it. -/
theorem C127_pack_into_partition_partial (fs : SourceFs) (faults : Faults) (fuel : Nat) {pre : Bytes}
    (hpre : pre.length ∈ discPartitions) (part0 : Bytes) {res : Res Unit} {f : PackState ImgFile}
    (h : createImage (fileEnv fs faults) fuel ⟨⟨part0, []⟩, []⟩ = (res, f)) :
    ∃ s', createImage (partEnv fs faults pre.length) fuel ⟨⟨pre ++ part0, []⟩, []⟩ = (res, s') ∧ s'.log = f.log ∧
      ∃ k, (k = 0 ∨ k = pre.length) ∧ s'.dev.img = pre ++ f.dev.img ++ List.replicate k 0 := by
  obtain ⟨h1, h2, k, h3, _, h4⟩ := part_pack fs faults fuel (discPartitions_aligned hpre).1 part0 []
  rcases hP : createImage (partEnv fs faults pre.length) fuel ⟨⟨pre ++ part0, []⟩, []⟩ with ⟨r, s'⟩
  rw [h, hP] at h1 h2 h4
  simp only at h1 h2 h4
  exact ⟨s', by rw [h1], h2, k, h3, h4⟩

/-- C127: when packing into a partition succeeds, the partition holds the tree. -/
theorem C127_partition_holds_tree {fs : SourceFs} {content : Path → Bytes} {faults : Faults} {fuel : Nat} {pre part0 : Bytes}
    {s' : PackState ImgFile} (hb : Bounded fs) (hf : FaithfulTo fs content) (hpre : pre.length ∈ discPartitions)
    (h : createImage (partEnv fs faults pre.length) fuel ⟨⟨pre ++ part0, []⟩, []⟩ = (.ok (), s')) :
    s'.dev.img.take pre.length = pre ∧
    HoldsTree (offsetDev (fileDev s'.dev.img) pre.length) fs.readDir content := by
  obtain ⟨ha, hlow⟩ := discPartitions_aligned hpre
  obtain ⟨h1, h2, k, h3, _, h4⟩ := part_pack fs faults fuel ha part0 []
  rcases hF : createImage (fileEnv fs faults) fuel ⟨⟨part0, []⟩, []⟩ with ⟨r, f⟩
  rw [h, hF] at h1 h4
  simp only at h1 h4
  subst h1
  rw [h4]
  refine ⟨by simp, ?_⟩
  refine pack_success_more hb hf hF (List.replicate k 0) (disc_agrees hlow (by simp) ?_)
  simp

theorem part_grows (fs : SourceFs) {fuel : Nat} {pre : Bytes} (hb : pre.length % 65536 = 0) {f : PackState ImgFile}
    (hF : createImage (fileEnv fs (fun _ => none)) fuel ⟨⟨[], []⟩, []⟩ = (.ok (), f))
    (hl : (applyTrace [] ((createP fs.readDir fs.pathToString fuel).ops.flatMap (opWrites fs))).length % 65536 ≠ 0) :
    ∃ s', createImage (partEnv fs (fun _ => none) pre.length) fuel ⟨⟨pre, []⟩, []⟩ = (.ok (), s') ∧
      s'.dev.img = pre ++ f.dev.img ++ List.replicate pre.length 0 := by
  obtain ⟨h1, h2, k, h3, h5, h4⟩ := part_pack fs (fun _ => none) fuel hb [] []
  rw [List.append_nil] at h1 h4
  rcases hP : createImage (partEnv fs (fun _ => none) pre.length) fuel ⟨⟨pre, []⟩, []⟩ with ⟨r, s'⟩
  rw [hF, hP] at h1 h4
  rw [hF] at h5
  simp only at h1 h4
  refine ⟨s', by rw [h1], ?_⟩
  rw [h4, h5 (fun _ => rfl) rfl hl]

/-- The extra zeros are really there: packing the sample into an empty partition makes the disc image longer than it
should be by the distance of the partition from the start. -/
theorem sample_partition (pre : Bytes) (hb : pre.length ∈ discPartitions) :
    ∃ f s', createImage (fileEnv sampleFs' (fun _ => none)) 2 ⟨⟨[], []⟩, []⟩ = (.ok (), f) ∧
      createImage (partEnv sampleFs' (fun _ => none) pre.length) 2 ⟨⟨pre, []⟩, []⟩ = (.ok (), s') ∧
      s'.dev.img = pre ++ f.dev.img ++ List.replicate pre.length 0 := by
  obtain ⟨f, hF⟩ := sample_packs []
  suffices hx : _ by
    obtain ⟨s', h1, h2⟩ := part_grows sampleFs' (discPartitions_aligned hb).1 hF hx
    exact ⟨f, s', hF, h1, h2⟩
  have hw : ((createP sampleFs'.readDir sampleFs'.pathToString 2).ops.flatMap (opWrites sampleFs')).map
      (fun w => (w.1, w.2.length)) =
      [(67584, 2048), (71680, 2), (71682, 3), (69632, 2048), (73728, 3), (65536, 2048)] := by decide +kernel
  have hl : ∀ (W : List (Nat × Bytes)) (x : Bytes), (applyTrace x W).length =
      (W.map (fun w => (w.1, w.2.length))).foldl (fun n w => if w.2 = 0 then n else max n (w.1 + w.2)) x.length := by
    intro W
    induction W with
    | nil => intro x; rfl
    | cons w W ih =>
      intro x
      show (applyTrace (writeAt x w.1 w.2) W).length = _
      rw [ih, writeAt_length]
      simp [List.length_eq_zero_iff]
  rw [hl, hw]
  decide

/-- C127 in full is false: the result in the partition need not be what packing into a file of its own gives; the disc
image becomes longer by as much as lies in front of the partition. -/
theorem C127_false : ¬ ∀ (fs : SourceFs) (faults : Faults) (fuel : Nat) (pre : Bytes), pre.length ∈ discPartitions →
    ∀ (f s' : PackState ImgFile), createImage (fileEnv fs faults) fuel ⟨⟨[], []⟩, []⟩ = (.ok (), f) →
      createImage (partEnv fs faults pre.length) fuel ⟨⟨pre, []⟩, []⟩ = (.ok (), s') →
      s'.dev.img = pre ++ f.dev.img := by
  intro hall
  obtain ⟨pre, hb, hpos⟩ : ∃ pre : Bytes, pre.length ∈ discPartitions ∧ 0 < pre.length :=
    ⟨List.replicate 34078720 0, by rw [List.length_replicate]; simp [discPartitions],
      by rw [List.length_replicate]; decide⟩
  obtain ⟨f, s', h1, h2, h3⟩ := sample_partition pre hb
  rw [hall sampleFs' (fun _ => none) 2 pre hb f s' h1 h2] at h3
  have := congrArg List.length h3
  simp only [List.length_append, List.length_replicate] at this
  omega

/-- The hypotheses of `C127_partition_holds_tree` hold for the sample and every partition. -/
example : ∀ pre : Bytes, pre.length ∈ discPartitions →
    ∃ s', createImage (partEnv sampleFs' (fun _ => none) pre.length) 2 ⟨⟨pre ++ [], []⟩, []⟩ = (.ok (), s') := by
  intro pre hb
  obtain ⟨_, s', _, h, _⟩ := sample_partition pre hb
  exact ⟨s', by rw [List.append_nil]; exact h⟩

/-! ## C128 -/

/-- C128: a seek in a partition takes the cursor to the byte of the partition that a seek in a file of its own would
take it to, whenever that is possible.  Missing for the full property: the position that is returned, and refusals. -/
theorem C128_seek_in_partition_partial {base len pos p : Nat} {w : SeekFrom} (h : seekTarget len pos w = some p) :
    partSeek base (base + len) (base + pos) w = .ok (base + p) := by
  cases w with
  | start n => cases h; rfl
  | fromEnd n =>
    simp only [seekTarget] at h
    split at h
    · cases h
    · cases h
      simp only [partSeek, fileSeek]
      rw [if_neg (by omega)]
      congr 1
      omega
  | current n =>
    simp only [seekTarget] at h
    split at h
    · cases h
    · cases h
      simp only [partSeek, fileSeek]
      rw [if_neg (by omega)]
      congr 1
      omega

example : seekTarget 4096 2048 (.current (-48)) = some 2000 := by decide

/-- C128 in full is false: what is returned is the position in the disc, not in the partition, and a seek to before the
beginning of the partition succeeds. -/
theorem C128_false :
    (∃ base len pos w p q, seekTarget len pos w = some p ∧ partSeek base (base + len) (base + pos) w = .ok q ∧ q ≠ p) ∧
    ∃ base len pos w q, seekTarget len pos w = none ∧ partSeek base (base + len) (base + pos) w = .ok q ∧ q < base :=
  ⟨⟨34078720, 4096, 0, .start 5, 5, 34078725, rfl, rfl, by decide⟩,
   ⟨34078720, 4096, 0, .current (-5), 34078715, rfl, rfl, by decide⟩⟩

end Xdvdfs.Props
