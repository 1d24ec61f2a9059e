import Verif.Model.Browser
import Verif.Proof.MemDev
import Verif.Proof.Cli

/-!
# Packing into a stream of the browser
-/

namespace Xdvdfs

open TabWriter Spec PM

theorem streamWrite_length (buf : Bytes) (off : Nat) (d : Bytes) :
    (streamWrite buf off d).length = max buf.length (off + d.length) := by
  unfold streamWrite
  simp only [List.length_append, List.length_take, List.length_replicate, List.length_drop]
  omega

/-- The writes to a stream. -/
def streamTrace (buf : Bytes) (W : List (Nat × Bytes)) : Bytes := W.foldl (fun b w => streamWrite b w.1 w.2) buf

theorem streamTrace_append (buf : Bytes) (A B : List (Nat × Bytes)) :
    streamTrace buf (A ++ B) = streamTrace (streamTrace buf A) B := List.foldl_append

theorem streamTrace_mono : ∀ (W : List (Nat × Bytes)) (buf : Bytes), buf.length ≤ (streamTrace buf W).length := by
  intro W
  induction W with
  | nil => intro buf; exact Nat.le_refl _
  | cons w W ih =>
    intro buf
    have := ih (streamWrite buf w.1 w.2)
    rw [streamWrite_length] at this
    show _ ≤ (streamTrace (streamWrite buf w.1 w.2) W).length
    omega

theorem streamTrace_end : ∀ (W : List (Nat × Bytes)) (buf : Bytes), ∀ w ∈ W,
    w.1 + w.2.length ≤ (streamTrace buf W).length := by
  intro W
  induction W with
  | nil => intro buf w hw; cases hw
  | cons x W ih =>
    intro buf w hw
    show _ ≤ (streamTrace (streamWrite buf x.1 x.2) W).length
    rcases List.mem_cons.1 hw with rfl | hw
    · have := streamTrace_mono W (streamWrite buf w.1 w.2)
      rw [streamWrite_length] at this
      omega
    · exact ih _ w hw

/-- Writing to a stream, and to the same bytes followed by zeros. -/
theorem streamWrite_tail {a c : Bytes} {off : Nat} {d : Bytes} (h : ZeroTail a c) (hl : off + d.length ≤ c.length) :
    ZeroTail (streamWrite a off d) (writeAt c off d) := by
  obtain ⟨k, rfl⟩ := h
  rw [(writeAt_in hl).1]
  simp only [List.length_append, List.length_replicate] at hl
  refine ⟨k - (off + d.length - a.length), ?_⟩
  unfold streamWrite
  rw [List.take_append, List.drop_append, List.take_replicate, List.drop_replicate,
    Nat.min_eq_left (by omega)]
  simp only [List.append_assoc]

theorem streamTrace_tail : ∀ (W : List (Nat × Bytes)) {a c : Bytes}, ZeroTail a c →
    (∀ w ∈ W, w.1 + w.2.length ≤ c.length) → ZeroTail (streamTrace a W) (applyTrace c W) ∧
      (applyTrace c W).length = c.length := by
  intro W
  induction W with
  | nil => intro a c h _; exact ⟨h, rfl⟩
  | cons w W ih =>
    intro a c h hW
    have hw := hW w (by simp)
    have hl := (writeAt_in hw).2
    have := ih (streamWrite_tail h hw) (fun x hx => by rw [hl]; exact hW x (by simp [hx]))
    rw [hl] at this
    exact this

/-- What is written to a stream is what is written to a file that has as many zeros to begin with. -/
theorem streamTrace_eq (W : List (Nat × Bytes)) :
    streamTrace [] W = applyTrace (List.replicate (streamTrace [] W).length 0) W := by
  have h := streamTrace_tail W (a := []) (c := List.replicate (streamTrace [] W).length 0)
    ⟨_, rfl⟩ (by simpa using streamTrace_end W [])
  obtain ⟨⟨k, h1⟩, h2⟩ := h
  have hk : k = 0 := by
    have := congrArg List.length h1
    rw [h2] at this
    simp only [List.length_append, List.length_replicate] at this
    omega
  subst hk
  simpa using h1.symm

/-! ## One operation -/

/-- The length the wrapper keeps is that of the copy behind the stream. -/
def LenOk (f : WebFile) : Prop := f.len = f.buf.length

theorem webWrite_ok {b : Browser} {off : Nat} {d : Bytes} {f f' : WebFile} (h : webWrite b off d f = (.ok (), f')) :
    f'.buf = streamWrite f.buf off d ∧ (LenOk f → LenOk f') := by
  unfold webWrite at h
  split at h
  · cases h
  · cases h
    refine ⟨rfl, fun hl => ?_⟩
    unfold LenOk at hl ⊢
    rw [streamWrite_length, hl]

theorem webChunks_ok {b : Browser} : ∀ (cs : List Bytes) (off : Nat) {f f' : WebFile},
    webChunks b off cs f = (.ok (), f') → f'.buf = streamTrace f.buf (chunksAt off cs) ∧ (LenOk f → LenOk f') := by
  intro cs
  induction cs with
  | nil => intro off f f' h; cases h; exact ⟨rfl, id⟩
  | cons c cs ih =>
    intro off f f' h
    simp only [webChunks] at h
    rcases hw : webWrite b off c f with ⟨r, f1⟩
    rw [hw] at h
    cases r with
    | ok u =>
      simp only at h
      obtain ⟨h1, h2⟩ := webWrite_ok hw
      obtain ⟨k1, k2⟩ := ih _ h
      rw [k1, h1]
      exact ⟨rfl, k2 ∘ h2⟩
    | err e => cases h
    | panic => cases h
    | hang => cases h

theorem web_op {b : Browser} {fs : SourceFs} {o : Op} {s s' : PackState WebFile}
    (h : o.run (webEnv b fs) s = (.ok (), s')) :
    OpOK fs o ∧ s'.dev.buf = streamTrace s.dev.buf (opWrites fs o) ∧ s'.log = s.log ++ opReports o ∧
      (LenOk s.dev → LenOk s'.dev) := by
  cases o with
  | report p => cases h; exact ⟨trivial, rfl, rfl, id⟩
  | write off d =>
    simp only [Op.run, PM.onDev, webEnv] at h
    rcases hw : webWrite b off d s.dev with ⟨r, f⟩
    rw [hw] at h
    simp only [Prod.mk.injEq] at h
    obtain ⟨rfl, rfl⟩ := h
    obtain ⟨h1, h2⟩ := webWrite_ok hw
    exact ⟨trivial, h1, by simp [opReports], h2⟩
  | copy p out n =>
    simp only [Op.run, PM.bind_def, PM.onDev, webEnv, PM.pure_def, opWrites, OpOK, opReports] at h ⊢
    rcases hw : webChunks b out (fs.copy p 0 n).1 s.dev with ⟨r, f⟩
    rw [hw] at h
    cases r with
    | ok u =>
      obtain ⟨h1, h2⟩ := webChunks_ok _ _ hw
      simp only at h
      cases hc : (fs.copy p 0 n).2 with
      | ok k => rw [hc] at h; cases h; exact ⟨⟨k, rfl⟩, h1, by simp, h2⟩
      | err e => rw [hc] at h; cases h
      | panic => rw [hc] at h; cases h
      | hang => rw [hc] at h; cases h
    | err e => cases h
    | panic => cases h
    | hang => cases h

theorem web_runOps {b : Browser} {fs : SourceFs} : ∀ (ops : List Op) {s s' : PackState WebFile},
    runOps (webEnv b fs) ops s = (.ok (), s') →
    (∀ o ∈ ops, OpOK fs o) ∧ s'.dev.buf = streamTrace s.dev.buf (ops.flatMap (opWrites fs)) ∧
      s'.log = s.log ++ ops.flatMap opReports ∧ (LenOk s.dev → LenOk s'.dev) := by
  intro ops
  induction ops with
  | nil => intro s s' h; cases h; exact ⟨by simp, rfl, by simp, id⟩
  | cons o ops ih =>
    intro s s' h
    simp only [runOps, PM.bind_def] at h
    rcases ho : o.run (webEnv b fs) s with ⟨r, s1⟩
    rw [ho] at h
    cases r with
    | ok u =>
      simp only at h
      obtain ⟨h1, h2, h3, h4⟩ := web_op ho
      obtain ⟨k1, k2, k3, k4⟩ := ih h
      refine ⟨?_, ?_, ?_, k4 ∘ h4⟩
      · intro o' ho'
        rcases List.mem_cons.1 ho' with rfl | ho'
        · exact h1
        · exact k1 o' ho'
      · rw [k2, h2, List.flatMap_cons, streamTrace_append]
      · rw [k3, h3, List.flatMap_cons, List.append_assoc]
    | err e => cases h
    | panic => cases h
    | hang => cases h

/-- Packing into a stream that succeeds: the plan succeeds, and the stream holds what it writes, and the padding. -/
theorem web_create {b : Browser} {fs : SourceFs} {fuel : Nat} {s' : PackState WebFile}
    (h : createImage (webEnv b fs) fuel newStream = (.ok (), s')) :
    (createP fs.readDir fs.pathToString fuel).res = .ok () ∧
    (∀ o ∈ (createP fs.readDir fs.pathToString fuel).ops, OpOK fs o) ∧
    s'.dev.buf.length % 65536 = 0 ∧
    s'.log = (createP fs.readDir fs.pathToString fuel).ops.flatMap opReports ++ [.finishedPacking] ∧
    ∃ P : List (Nat × Bytes), s'.dev.buf =
      streamTrace [] ((createP fs.readDir fs.pathToString fuel).ops.flatMap (opWrites fs) ++ P) ∧
      P = padOf (streamTrace [] ((createP fs.readDir fs.pathToString fuel).ops.flatMap (opWrites fs))) := by
  rw [createImage_eq] at h
  have e1 : (webEnv b fs).readDir = fs.readDir := rfl
  have e2 : (webEnv b fs).pathToString = fs.pathToString := rfl
  rw [e1, e2] at h
  generalize createP fs.readDir fs.pathToString fuel = P at h ⊢
  obtain ⟨ops, res⟩ := P
  simp only [Pl.run, PM.bind_def] at h
  rcases hr : runOps (webEnv b fs) ops newStream with ⟨r, s1⟩
  rw [hr] at h
  cases r with
  | ok u =>
    obtain ⟨h1, h2, h3, h4⟩ := web_runOps _ hr
    have hl : s1.dev.len = s1.dev.buf.length := h4 rfl
    simp only [PM.lift] at h
    cases res with
    | ok v =>
      simp only at h
      refine ⟨rfl, h1, ?_⟩
      have h2' : s1.dev.buf = streamTrace [] (ops.flatMap (opWrites fs)) := h2
      have h3' : s1.log = ops.flatMap opReports := by simpa [newStream] using h3
      rcases hp : padImage (webEnv b fs) s1 with ⟨r2, s2⟩
      rw [hp] at h
      cases r2 with
      | ok v2 =>
        simp only [PM.report, Prod.mk.injEq, true_and] at h
        subst h
        simp only
        unfold padImage at hp
        simp only [PM.bind_def, webEnv, devLen] at hp
        rw [hl] at hp
        split at hp
        · next hm =>
          simp only [PM.onDev] at hp
          rcases hw : webWrite b s1.dev.buf.length (List.replicate (32 * 2048 - s1.dev.buf.length % (32 * 2048)) 0)
            s1.dev with ⟨r3, f⟩
          rw [hw] at hp
          simp only [Prod.mk.injEq] at hp
          obtain ⟨rfl, rfl⟩ := hp
          obtain ⟨k1, _⟩ := webWrite_ok hw
          simp only
          refine ⟨?_, by rw [h3'], _, ?_, rfl⟩
          · rw [k1, streamWrite_length, List.length_replicate]
            omega
          · rw [k1, streamTrace_append, ← h2']
            unfold padOf
            rw [if_pos hm]
            rfl
        · next hm =>
          cases hp
          refine ⟨by omega, by rw [h3'], _, ?_, rfl⟩
          rw [streamTrace_append, ← h2']
          unfold padOf
          rw [if_neg hm]
          rfl
      | err e => cases h
      | panic => cases h
      | hang => cases h
    | err e => cases h
    | panic => cases h
    | hang => cases h
  | err e => cases h
  | panic => cases h
  | hang => cases h

/-- Packing into a stream is packing into a file that is zero to begin with. -/
theorem web_as_file {b : Browser} {fs : SourceFs} {fuel : Nat} {s' : PackState WebFile}
    (h : createImage (webEnv b fs) fuel newStream = (.ok (), s')) :
    ∃ s2, createImage (fileEnv fs (fun _ => none)) fuel ⟨⟨List.replicate s'.dev.buf.length 0, []⟩, []⟩ = (.ok (), s2) ∧
      s2.dev.img = s'.dev.buf ∧ s2.log = s'.log ∧ s'.dev.buf.length % 65536 = 0 := by
  obtain ⟨h1, h2, h3, h4, P, h5, h6⟩ := web_create h
  obtain ⟨s2, hs2⟩ := (file_create fs fuel (List.replicate s'.dev.buf.length 0)).1 ⟨h1, h2⟩
  refine ⟨s2, hs2, ?_, ?_, h3⟩
  · obtain ⟨k1, _⟩ := file_result hs2
    rw [k1]
    generalize hW : (createP fs.readDir fs.pathToString fuel).ops.flatMap (opWrites fs) = W at h5 h6 k1
    have hend := streamTrace_end (W ++ P) []
    rw [← h5] at hend
    have hl : (applyTrace (List.replicate s'.dev.buf.length 0) W).length = s'.dev.buf.length := by
      have := (streamTrace_tail W (a := []) (c := List.replicate s'.dev.buf.length 0) ⟨_, rfl⟩ (by
        intro w hw
        rw [List.length_replicate]
        exact hend w (List.mem_append_left _ hw))).2
      rw [this, List.length_replicate]
    have hp0 : padOf (applyTrace (List.replicate s'.dev.buf.length 0) W) = [] := by
      unfold padOf
      rw [hl, if_neg (by omega)]
    rw [hp0]
    show applyTrace _ W = _
    have hzt := (streamTrace_tail W (a := []) (c := List.replicate s'.dev.buf.length 0) ⟨_, rfl⟩ (by
        intro w hw
        rw [List.length_replicate]
        exact hend w (List.mem_append_left _ hw))).1
    obtain ⟨k, hk⟩ := hzt
    rw [hk]
    have hkl := congrArg List.length hk
    rw [hl, List.length_append, List.length_replicate] at hkl
    rw [h5, streamTrace_append, h6]
    rw [h5, streamTrace_append, h6] at hkl
    unfold padOf at hkl ⊢
    split
    · next hm =>
      rw [if_pos hm] at hkl
      have e : ∀ (x z : Bytes), streamTrace x [(x.length, z)] = x ++ z := by
        intro x z
        show streamWrite x x.length z = _
        unfold streamWrite
        simp
      rw [e] at hkl ⊢
      rw [List.length_append, List.length_replicate] at hkl
      congr 2
      omega
    · next hm =>
      rw [if_neg hm] at hkl
      have : k = 0 := by
        simp only [streamTrace, List.foldl_nil] at hkl
        omega
      subst this
      simp [streamTrace]
  · rw [(file_result hs2).2, h4]

theorem webEnv_faultless {b : Browser} (hb : ∀ k, b.faults k = false) (fs : SourceFs) : Faultless fs (webEnv b fs) where
  readDir := rfl
  pts := rfl
  write := by intro off d s; simp [webEnv, webWrite, hb]
  copy := by
    intro p i o n s
    simp only [webEnv]
    have hc : ∀ (cs : List Bytes) (off : Nat) (f : WebFile), (webChunks b off cs f).1 = .ok () := by
      intro cs
      induction cs with
      | nil => intro off f; rfl
      | cons c cs ih =>
        intro off f
        simp only [webChunks, webWrite, hb]
        exact ih _ _
    have := hc (fs.copy p i n).1 o s
    rcases hw : webChunks b o (fs.copy p i n).1 s with ⟨r, f⟩
    rw [hw] at this
    simp only at this
    subst this
    rfl
  len := fun s => ⟨_, rfl⟩

/-- Packing into a stream succeeds when packing into a file does, and no write fails. -/
theorem web_create_works {b : Browser} (hb : ∀ k, b.faults k = false) {fs : SourceFs} {fuel : Nat} {img0 : Bytes}
    {s2 : PackState ImgFile}
    (h : createImage (fileEnv fs (fun _ => none)) fuel ⟨⟨img0, []⟩, []⟩ = (.ok (), s2)) :
    ∃ s', createImage (webEnv b fs) fuel newStream = (.ok (), s') := by
  obtain ⟨h1, h2⟩ := (file_create fs fuel img0).2 ⟨s2, h⟩
  have := (webEnv_faultless hb fs).createImage fuel newStream
  rw [opResult_ok h2] at this
  simp only [h1] at this
  rcases hc : createImage (webEnv b fs) fuel newStream with ⟨r, s'⟩
  rw [hc] at this
  simp only at this
  subst this
  exact ⟨s', rfl⟩

/-! ## Repacking -/

theorem repackWeb_cases {b : Browser} {copier : Copier} {wf fuel : Nat} {fs : ImgFs}
    {s s' : PackState WebFile} {res : Res Unit} (hc : fs.cache = Trie.empty)
    (h : repackWeb b copier wf fuel fs s = (res, s')) :
    (∃ fs', After wf fs fs' ∧
      (∀ p, DirOf (imgReadDir fs.dev wf fs.vol.root) p → Known fs.dev wf fs.vol.root fs'.cache p) ∧
      createImage (webEnv b (pureSource wf copier fs')) fuel s = (res, s')) ∨
    ((∀ u, res ≠ .ok u) ∧ s'.dev = s.dev) := by
  have hinv : CacheInv fs.dev wf fs.vol.root fs.cache := by rw [hc]; exact cacheInv_empty _ _ _
  obtain ⟨h1, h2⟩ := imgTreeLoop_spec fuel fs [[]] [] s hinv (by simp)
  simp only [repackWeb, PM.bind_def] at h
  rcases hx : imgTreeLoop wf fuel fs [[]] [] s with ⟨r, s1⟩
  rw [hx] at h h1 h2
  cases r with
  | ok x =>
    obtain ⟨D, fs'⟩ := x
    left
    simp only at h
    obtain ⟨j1, j2, j3⟩ := h2 D fs' rfl
    have hdt := j1 (webEnv b (pureSource wf copier fs')) (by
      simp only [webEnv, pureSource]; rw [j2.dev, j2.vol])
    refine ⟨fs', j2, ?_, ?_⟩
    · intro p hp
      obtain ⟨k1, _, _⟩ := dirTree_ok hdt
      have : (webEnv b (pureSource wf copier fs')).readDir = imgReadDir fs.dev wf fs.vol.root := by
        simp only [webEnv, pureSource]; rw [j2.dev, j2.vol]
      rw [this] at k1
      obtain ⟨y, hy, rfl⟩ := List.mem_map.1 ((k1.mem_iff p).2 hp)
      exact j3 (by simp) y hy
    · simp only [createImage, dirTree, PM.bind_def, hdt]
      rw [← h]
      exact congrFun (createFrom_congr (webEnv b (fs'.source (fun _ => .err .other) copier))
        (imgReadDir fs'.dev wf fs'.vol.root) D) s1
  | err e => right; cases h; exact ⟨by simp, h1⟩
  | panic => right; cases h; exact ⟨by simp, h1⟩
  | hang => right; cases h; exact ⟨by simp, h1⟩

end Xdvdfs
