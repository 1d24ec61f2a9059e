import Verif.Spec.MemDev
import Verif.Proof.PackEnd
import Verif.Proof.BufWriter
import Verif.Proof.PackTotal
import Verif.Proof.StdFs

/-!
# Packing into memory
-/

namespace Xdvdfs

open TabWriter Spec PM

/-- A write that a buffer of `n` bytes takes. -/
def InBuf (n : Nat) (w : Nat × Bytes) : Prop := w.1 < n ∧ w.1 + w.2.length ≤ n

theorem writeAt_in {b : Bytes} {off : Nat} {d : Bytes} (h : off + d.length ≤ b.length) :
    writeAt b off d = b.take off ++ d ++ b.drop (off + d.length) ∧ (writeAt b off d).length = b.length := by
  unfold writeAt
  split
  · next hd => subst hd; simp
  · have : off - b.length = 0 := by omega
    rw [this]
    simp only [List.replicate_zero, List.nil_append, List.append_assoc, true_and, List.length_append,
      List.length_take, List.length_drop]
    omega

theorem boxWrite_ok {b : Bytes} {off : Nat} {d : Bytes} (h : InBuf b.length (off, d)) :
    boxWrite off d b = (.ok (), writeAt b off d) := by
  obtain ⟨h1, h2⟩ := h
  simp only at h1 h2
  unfold boxWrite memWrite
  rw [if_neg (by omega)]
  simp only
  rw [(writeAt_in h2).1]

theorem boxWrite_fail {b : Bytes} {off : Nat} {d : Bytes} (h : ¬ InBuf b.length (off, d)) :
    boxWrite off d b = (.err .io, b) := by
  unfold boxWrite memWrite
  rw [if_pos (by unfold InBuf at h; simp only at h; omega)]

theorem boxWrite_cases (off : Nat) (d b : Bytes) :
    (InBuf b.length (off, d) ∧ boxWrite off d b = (.ok (), writeAt b off d)) ∨
    (¬ InBuf b.length (off, d) ∧ boxWrite off d b = (.err .io, b)) := by
  by_cases h : InBuf b.length (off, d)
  · exact .inl ⟨h, boxWrite_ok h⟩
  · exact .inr ⟨h, boxWrite_fail h⟩

theorem applyTrace_in : ∀ {W : List (Nat × Bytes)} {b : Bytes}, (∀ w ∈ W, InBuf b.length w) →
    (applyTrace b W).length = b.length := by
  intro W
  induction W with
  | nil => intro b _; rfl
  | cons w W ih =>
    intro b h
    have hl := (writeAt_in (h w (by simp)).2).2
    show (applyTrace (writeAt b w.1 w.2) W).length = _
    rw [ih (by rw [hl]; exact fun x hx => h x (by simp [hx])), hl]

theorem boxChunks_spec : ∀ (cs : List Bytes) (off : Nat) (b : Bytes),
    ((∀ w ∈ chunksAt off cs, InBuf b.length w) ∧
      boxChunks off cs b = (.ok (), applyTrace b (chunksAt off cs))) ∨
    ((∃ w ∈ chunksAt off cs, ¬ InBuf b.length w) ∧ (boxChunks off cs b).1 = .err .io) := by
  intro cs
  induction cs with
  | nil => intro off b; exact .inl ⟨by simp [chunksAt], rfl⟩
  | cons c cs ih =>
    intro off b
    simp only [chunksAt, boxChunks]
    rcases boxWrite_cases off c b with ⟨h1, h2⟩ | ⟨h1, h2⟩
    · rw [h2]
      simp only
      have hl := (writeAt_in h1.2).2
      simp only at hl
      rcases ih (off + c.length) (writeAt b off c) with ⟨k1, k2⟩ | ⟨⟨w, k1, k2⟩, k3⟩
      · left
        rw [hl] at k1
        refine ⟨?_, k2⟩
        intro w hw
        rcases List.mem_cons.1 hw with rfl | hw
        · exact h1
        · exact k1 w hw
      · right
        rw [hl] at k2
        exact ⟨⟨w, by simp [k1], k2⟩, k3⟩
    · right
      rw [h2]
      exact ⟨⟨(off, c), by simp, h1⟩, rfl⟩

/-- One operation on a buffer: it succeeds exactly if the source delivers and all writes are inside. -/
theorem box_op (fs : SourceFs) (o : Op) (s : PackState Bytes) :
    (OpOK fs o ∧ (∀ w ∈ opWrites fs o, InBuf s.dev.length w) ∧
      o.run (boxEnv fs) s = (.ok (), ⟨applyTrace s.dev (opWrites fs o), s.log ++ opReports o⟩)) ∨
    (¬ (OpOK fs o ∧ ∀ w ∈ opWrites fs o, InBuf s.dev.length w) ∧ (o.run (boxEnv fs) s).1 ≠ .ok ()) := by
  cases o with
  | report p => exact .inl ⟨trivial, by simp [opWrites], rfl⟩
  | write off d =>
    rcases boxWrite_cases off d s.dev with ⟨h1, h2⟩ | ⟨h1, h2⟩
    · refine .inl ⟨trivial, by simpa [opWrites] using h1, ?_⟩
      simp only [Op.run, PM.onDev, boxEnv, h2, opReports, List.append_nil]
      rfl
    · refine .inr ⟨fun h => h1 (h.2 _ (by simp [opWrites])), ?_⟩
      simp [Op.run, PM.onDev, boxEnv, h2]
  | copy p out n =>
    simp only [Op.run, PM.bind_def, PM.onDev, boxEnv, PM.pure_def, opWrites, OpOK, opReports]
    rcases boxChunks_spec (fs.copy p 0 n).1 out s.dev with ⟨h1, h2⟩ | ⟨⟨w, h1, h2⟩, h3⟩
    · rw [h2]
      simp only
      cases hc : (fs.copy p 0 n).2 with
      | ok k => exact .inl ⟨⟨k, rfl⟩, h1, by simp⟩
      | err e => exact .inr ⟨by simp, by simp⟩
      | panic => exact .inr ⟨by simp, by simp⟩
      | hang => exact .inr ⟨by simp, by simp⟩
    · right
      refine ⟨fun h => h2 (h.2 w h1), ?_⟩
      rcases hw : boxChunks out (fs.copy p 0 n).1 s.dev with ⟨r, b⟩
      rw [hw] at h3
      simp only at h3
      subst h3
      simp

theorem box_runOps (fs : SourceFs) : ∀ (ops : List Op) (s : PackState Bytes),
    ((∀ o ∈ ops, OpOK fs o) ∧ (∀ w ∈ ops.flatMap (opWrites fs), InBuf s.dev.length w) ∧
      runOps (boxEnv fs) ops s =
        (.ok (), ⟨applyTrace s.dev (ops.flatMap (opWrites fs)), s.log ++ ops.flatMap opReports⟩)) ∨
    (¬ ((∀ o ∈ ops, OpOK fs o) ∧ ∀ w ∈ ops.flatMap (opWrites fs), InBuf s.dev.length w) ∧
      (runOps (boxEnv fs) ops s).1 ≠ .ok ()) := by
  intro ops
  induction ops with
  | nil => intro s; exact .inl ⟨by simp, by simp, by simp [runOps, PM.pure_def, applyTrace]⟩
  | cons o ops ih =>
    intro s
    simp only [runOps, PM.bind_def, List.flatMap_cons]
    rcases box_op fs o s with ⟨h1, h2, h3⟩ | ⟨h1, h2⟩
    · rw [h3]
      simp only
      have hl := applyTrace_in h2
      rcases ih ⟨applyTrace s.dev (opWrites fs o), s.log ++ opReports o⟩ with ⟨k1, k2, k3⟩ | ⟨k1, k2⟩
      · left
        simp only [hl] at k2
        refine ⟨?_, ?_, ?_⟩
        · intro o' ho'
          rcases List.mem_cons.1 ho' with rfl | ho'
          · exact h1
          · exact k1 o' ho'
        · intro w hw
          rcases List.mem_append.1 hw with hw | hw
          · exact h2 w hw
          · exact k2 w hw
        · rw [k3]; simp only [applyTrace_append, List.append_assoc]
      · right
        simp only [hl] at k1
        exact ⟨fun h => k1 ⟨fun o' ho' => h.1 o' (by simp [ho']),
          fun w hw => h.2 w (List.mem_append_right _ hw)⟩, k2⟩
    · right
      refine ⟨fun h => h1 ⟨h.1 o (by simp), fun w hw => h.2 w (List.mem_append_left _ hw)⟩, ?_⟩
      rcases hr : o.run (boxEnv fs) s with ⟨r, s1⟩
      rw [hr] at h2
      cases r with
      | ok u => exact absurd rfl h2
      | err e => simp
      | panic => simp
      | hang => simp

theorem box_pad (fs : SourceFs) (s : PackState Bytes) :
    (s.dev.length % 65536 = 0 ∧ padImage (boxEnv fs) s = (.ok (), s)) ∨
    (s.dev.length % 65536 ≠ 0 ∧ (padImage (boxEnv fs) s).1 = .err .io) := by
  unfold padImage
  simp only [PM.bind_def, boxEnv, devLen]
  by_cases h : s.dev.length % 65536 = 0
  · left
    refine ⟨h, ?_⟩
    rw [if_neg (by omega)]
    rfl
  · right
    refine ⟨h, ?_⟩
    rw [if_pos (by omega)]
    simp only [PM.onDev]
    rw [boxWrite_fail (by unfold InBuf; simp)]

/-- Packing into a buffer, exactly. -/
theorem box_create (fs : SourceFs) (fuel : Nat) (b : Bytes) (s' : PackState Bytes) :
    createImage (boxEnv fs) fuel ⟨b, []⟩ = (.ok (), s') ↔
    (createP fs.readDir fs.pathToString fuel).res = .ok () ∧
    (∀ o ∈ (createP fs.readDir fs.pathToString fuel).ops, OpOK fs o) ∧
    (∀ w ∈ (createP fs.readDir fs.pathToString fuel).ops.flatMap (opWrites fs), InBuf b.length w) ∧
    b.length % 65536 = 0 ∧
    s' = ⟨applyTrace b ((createP fs.readDir fs.pathToString fuel).ops.flatMap (opWrites fs)),
      (createP fs.readDir fs.pathToString fuel).ops.flatMap opReports ++ [.finishedPacking]⟩ := by
  rw [createImage_eq]
  have e1 : (boxEnv fs).readDir = fs.readDir := rfl
  have e2 : (boxEnv fs).pathToString = fs.pathToString := rfl
  rw [e1, e2]
  generalize createP fs.readDir fs.pathToString fuel = P
  obtain ⟨ops, res⟩ := P
  simp only [Pl.run, PM.bind_def]
  rcases box_runOps fs ops ⟨b, []⟩ with ⟨h1, h2, h3⟩ | ⟨h1, h2⟩
  · rw [h3]
    simp only [PM.lift]
    cases res with
    | ok u =>
      simp only
      have hl := applyTrace_in h2
      simp only at hl h2
      rcases box_pad fs ⟨applyTrace b (ops.flatMap (opWrites fs)), [] ++ ops.flatMap opReports⟩ with
        ⟨k1, k2⟩ | ⟨k1, k2⟩
      · rw [k2]
        simp only [hl] at k1
        simp only [PM.report, Prod.mk.injEq, true_and, List.nil_append]
        exact ⟨fun h => ⟨h1, h2, k1, h.symm⟩, fun h => h.2.2.2.symm⟩
      · simp only [hl] at k1
        rcases hr : padImage (boxEnv fs) ⟨applyTrace b (ops.flatMap (opWrites fs)), [] ++ ops.flatMap opReports⟩ with
          ⟨r, s1⟩
        rw [hr] at k2
        simp only at k2
        subst k2
        simp only [Prod.mk.injEq, reduceCtorEq, false_and, false_iff]
        exact fun h => k1 h.2.2.2.1
    | err e => simp
    | panic => simp
    | hang => simp
  · rcases hr : runOps (boxEnv fs) ops ⟨b, []⟩ with ⟨r, s1⟩
    rw [hr] at h2
    cases r with
    | ok u => exact absurd rfl h2
    | err e => simp only [Prod.mk.injEq, reduceCtorEq, false_and, false_iff]; exact fun h => h1 ⟨h.2.1, h.2.2.1⟩
    | panic => simp only [Prod.mk.injEq, reduceCtorEq, false_and, false_iff]; exact fun h => h1 ⟨h.2.1, h.2.2.1⟩
    | hang => simp only [Prod.mk.injEq, reduceCtorEq, false_and, false_iff]; exact fun h => h1 ⟨h.2.1, h.2.2.1⟩

/-! ## Compared with a file -/

theorem opResult_ok {fs : SourceFs} : ∀ {ops : List Op}, (∀ o ∈ ops, OpOK fs o) → opResult fs ops = .ok () := by
  intro ops
  induction ops with
  | nil => intro _; rfl
  | cons o ops ih =>
    intro h
    have hr := ih (fun o' ho' => h o' (by simp [ho']))
    cases o with
    | report p => exact hr
    | write off d => exact hr
    | copy p out n =>
      obtain ⟨k, hk⟩ := h _ List.mem_cons_self
      simp only [opResult, hk]
      exact hr

/-- Packing into a file without faults, exactly. -/
theorem file_create (fs : SourceFs) (fuel : Nat) (img0 : Bytes) :
    ((createP fs.readDir fs.pathToString fuel).res = .ok () ∧
      ∀ o ∈ (createP fs.readDir fs.pathToString fuel).ops, OpOK fs o) ↔
    ∃ s', createImage (fileEnv fs (fun _ => none)) fuel ⟨⟨img0, []⟩, []⟩ = (.ok (), s') := by
  constructor
  · rintro ⟨h1, h2⟩
    have := (fileEnv_faultless fs).createImage fuel ⟨⟨img0, []⟩, []⟩
    rw [opResult_ok h2] at this
    simp only [h1] at this
    rcases hc : createImage (fileEnv fs (fun _ => none)) fuel ⟨⟨img0, []⟩, []⟩ with ⟨r, s'⟩
    rw [hc] at this
    simp only at this
    subst this
    exact ⟨s', rfl⟩
  · rintro ⟨s', h⟩
    rcases (createImage_trace fs _ fuel img0 h).2 with ⟨h2, _⟩ | ⟨h2, h3, _⟩
    · exact absurd rfl h2
    · exact ⟨h2, h3⟩

theorem file_result {fs : SourceFs} {fuel : Nat} {img0 : Bytes} {s' : PackState ImgFile}
    (h : createImage (fileEnv fs (fun _ => none)) fuel ⟨⟨img0, []⟩, []⟩ = (.ok (), s')) :
    s'.dev.img = applyTrace (applyTrace img0 ((createP fs.readDir fs.pathToString fuel).ops.flatMap (opWrites fs)))
      (padOf (applyTrace img0 ((createP fs.readDir fs.pathToString fuel).ops.flatMap (opWrites fs)))) ∧
    s'.log = (createP fs.readDir fs.pathToString fuel).ops.flatMap opReports ++ [.finishedPacking] := by
  obtain ⟨h1, h2⟩ := createImage_trace fs _ fuel img0 h
  rcases h2 with ⟨h2, _⟩ | ⟨_, _, P, h3, _, h5⟩
  · exact absurd rfl h2
  · obtain ⟨h6, h7⟩ := h5 rfl
    rw [h1, h3, applyTrace_append, h6]
    exact ⟨rfl, h7⟩

theorem pad_length (img : Bytes) : (applyTrace img (padOf img)).length = (img.length + 65535) / 65536 * 65536 := by
  unfold padOf
  split
  · show (writeAt img img.length _).length = _
    rw [writeAt_length, if_neg]
    · simp only [List.length_replicate]; omega
    · intro h
      have := congrArg List.length h
      simp only [List.length_replicate, List.length_nil] at this
      omega
  · show img.length = _
    omega

theorem total_pos : ∀ {lens : List Nat} {pos : Nat}, lens ≠ [] → (∀ l ∈ lens, 16 ≤ l) → 0 < total pos lens := by
  have hge : ∀ (lens : List Nat) (pos : Nat), pos ≤ total pos lens := by
    intro lens
    induction lens with
    | nil => intro pos; exact Nat.le_refl _
    | cons l ls ih =>
      intro pos
      have := ih (place pos l + l)
      have := le_place pos l
      show pos ≤ total (place pos l + l) ls
      omega
  intro lens pos hne h
  cases lens with
  | nil => exact absurd rfl hne
  | cons l ls =>
    have := hge ls (place pos l + l)
    have := h l (by simp)
    show 0 < total (place pos l + l) ls
    omega

theorem PlanShape.table_nonempty {rd : ReadDir} {pts : Path → Str} {D M rootW rootSize next recs n' rest}
    (h : PlanShape rd pts D M rootW rootSize next recs n' rest) {x : Rec} (hx : x ∈ recs) : x.r.entryTable ≠ [] := by
  obtain ⟨lst, k1, k2, k3⟩ := (h.recOK hx).built
  obtain ⟨m, m', hr⟩ := (h.recOK hx).repr
  intro he
  have he' := congrArg List.length he
  rcases (table_written k3 hr).2 with ⟨_, h2, _⟩ | ⟨_, A', T', lens, es, W, hne, _⟩
  · rw [h2] at he'
    simp only [List.length_replicate, List.length_nil] at he'
    omega
  · obtain ⟨f1, _, _, _, f5, f6⟩ := W.facts
    have hl : lens ≠ [] := by
      intro hl; rw [hl] at f1; exact hne (List.length_eq_zero_iff.1 f1.symm)
    have := total_pos (pos := 0) hl (fun l hl => (f5 l hl).2.1)
    rw [f6] at he'
    simp only [List.length_nil, roundUp] at he'
    omega

theorem chunksAt_mem : ∀ {cs : List Bytes} {off : Nat} {w : Nat × Bytes}, w ∈ chunksAt off cs → w.2 ∈ cs := by
  intro cs
  induction cs with
  | nil => intro off w h; simp [chunksAt] at h
  | cons c cs ih =>
    intro off w h
    rcases List.mem_cons.1 h with rfl | h
    · simp
    · exact List.mem_cons_of_mem _ (ih h)

/-- No write of a plan is empty, if the source delivers no empty chunk. -/
theorem plan_nonempty {fs : SourceFs} (hn : NoEmptyChunks fs) (fuel : Nat)
    (hres : (createP fs.readDir fs.pathToString fuel).res = .ok ()) :
    ∀ w ∈ (createP fs.readDir fs.pathToString fuel).ops.flatMap (opWrites fs), w.2 ≠ [] := by
  have hfrom := createP_fromSource hres
  rcases createP_inv fs.readDir fs.pathToString fuel with
    ⟨k1, k2⟩ | ⟨D, M, rootW, rootSize, next, recs, n', rest, hS, ⟨k1, rfl, k3, k4⟩ | ⟨k1, k2⟩⟩
  · exact absurd hres k2
  · rw [k4] at hfrom ⊢
    intro w hw
    obtain ⟨o, ho, hw⟩ := List.mem_flatMap.1 hw
    cases o with
    | report p => simp [opWrites] at hw
    | copy p out n =>
      intro he
      obtain ⟨p', e, g1, g2, rfl, rfl⟩ := hfrom _ ho
      exact hn p' e g1 g2 (he ▸ chunksAt_mem hw)
    | write off d =>
      simp only [opWrites, List.mem_singleton] at hw
      subst hw
      simp only
      rcases List.mem_append.1 ho with ho | ho
      · simp only [planOps, discovered, List.mem_append, List.mem_map, List.mem_cons, List.mem_flatMap,
          List.not_mem_nil, or_false] at ho
        rcases ho with ⟨x, _, hx⟩ | (hx | hx) | ⟨y, hy, hx⟩
        · cases hx
        · cases hx
        · cases hx
        · simp only [opsRec, List.mem_cons, List.mem_flatMap] at hx
          rcases hx with hx | hx | ⟨l, hl, hx⟩
          · cases hx
          · cases hx; exact hS.table_nonempty hy
          · simp only [opsEntry, List.mem_cons] at hx
            rcases hx with hx | hx
            · cases hx
            · split at hx
              · cases hx
              · rw [List.mem_singleton] at hx; cases hx
      · simp only [descOp, List.mem_singleton] at ho
        cases ho
        intro he
        have := rootDesc_length 33 rootSize
        rw [he] at this
        simp only [List.length_nil] at this
        omega
  · exact absurd hres k1

/-- Non-empty writes fit a buffer exactly if what they make out of nothing is not larger. -/
theorem inBuf_iff {W : List (Nat × Bytes)} (hne : ∀ w ∈ W, w.2 ≠ []) (n : Nat) :
    (∀ w ∈ W, InBuf n w) ↔ (applyTrace [] W).length ≤ n := by
  constructor
  · intro h
    have key : ∀ {W : List (Nat × Bytes)} {img : Bytes}, (∀ w ∈ W, InBuf n w) → img.length ≤ n →
        (applyTrace img W).length ≤ n := by
      intro W
      induction W with
      | nil => intro img _ h; exact h
      | cons w W ih =>
        intro img hW him
        refine ih (img := writeAt img w.1 w.2) (fun x hx => hW x (by simp [hx])) ?_
        rw [writeAt_length]
        have := (hW w (by simp)).2
        split <;> omega
    exact key h (Nat.zero_le _)
  · intro h w hw
    have h1 := (applyTrace_length (W := W) (img := [])).2 w hw (hne w hw)
    have h2 := List.length_pos_iff.2 (hne w hw)
    unfold InBuf
    omega

/-! ## Over zeros -/

/-- `b` is `a` followed by zeros. -/
def ZeroTail (a b : Bytes) : Prop := ∃ k, b = a ++ List.replicate k 0

theorem zeroTail_iff {a b : Bytes} : ZeroTail a b ↔ a.length ≤ b.length ∧
    ∀ i, i < b.length → b[i]? = if i < a.length then a[i]? else some 0 := by
  constructor
  · rintro ⟨k, rfl⟩
    refine ⟨by simp, ?_⟩
    intro i hi
    split
    · next h => rw [List.getElem?_append_left h]
    · next h =>
      simp only [List.length_append, List.length_replicate] at hi
      rw [List.getElem?_append_right (by omega), List.getElem?_replicate, if_pos (by omega)]
  · rintro ⟨h1, h2⟩
    refine ⟨b.length - a.length, ?_⟩
    apply List.ext_getElem?
    intro i
    by_cases hi : i < b.length
    · rw [h2 i hi]
      split
      · next h => rw [List.getElem?_append_left h]
      · next h => rw [List.getElem?_append_right (by omega), List.getElem?_replicate, if_pos (by omega)]
    · rw [List.getElem?_eq_none (by omega), List.getElem?_eq_none (by simp; omega)]

theorem ZeroTail.write {a b : Bytes} (h : ZeroTail a b) {off : Nat} {d : Bytes} (hf : off + d.length ≤ b.length) :
    ZeroTail (writeAt a off d) (writeAt b off d) := by
  by_cases hd : d = []
  · subst hd; exact h
  rw [zeroTail_iff] at h ⊢
  obtain ⟨h1, h2⟩ := h
  have la := writeAt_length a off d
  have lb := writeAt_length b off d
  rw [if_neg hd] at la lb
  refine ⟨by omega, ?_⟩
  intro i hi
  rw [writeAt_get, writeAt_get, if_neg hd, if_neg hd, la]
  have hi' : i < b.length := by omega
  by_cases c1 : i < off
  · rw [if_pos c1, if_pos c1, if_pos hi', h2 i hi']
    split
    · rw [if_pos (by omega)]
    · rw [if_pos (by omega)]
  · rw [if_neg c1, if_neg c1]
    by_cases c2 : i < off + d.length
    · rw [if_pos c2, if_pos c2, if_pos (by omega)]
    · rw [if_neg c2, if_neg c2, h2 i hi']
      by_cases c3 : i < a.length
      · rw [if_pos c3, if_pos (by omega)]
      · rw [if_neg c3, if_neg (by omega)]

theorem ZeroTail.trace : ∀ {W : List (Nat × Bytes)} {a b : Bytes}, ZeroTail a b → (∀ w ∈ W, InBuf b.length w) →
    ZeroTail (applyTrace a W) (applyTrace b W) := by
  intro W
  induction W with
  | nil => intro a b h _; exact h
  | cons w W ih =>
    intro a b h hW
    have hw := (hW w (by simp)).2
    refine ih (h.write hw) ?_
    rw [(writeAt_in hw).2]
    exact fun x hx => hW x (by simp [hx])

theorem ZeroTail.pad {a b : Bytes} (h : ZeroTail a b) (hl : b.length % 65536 = 0) :
    ZeroTail (applyTrace a (padOf a)) b := by
  have hp := pad_length a
  rw [zeroTail_iff] at h ⊢
  obtain ⟨h1, h2⟩ := h
  refine ⟨by rw [hp]; omega, ?_⟩
  intro i hi
  rw [h2 i hi]
  by_cases c : i < a.length
  · rw [if_pos c, if_pos (by rw [hp]; omega)]
    unfold padOf
    split
    · show _ = (writeAt a _ _)[i]?
      rw [writeAt_get]
      split
      · rfl
      · rfl
    · rfl
  · rw [if_neg c]
    split
    · next c2 =>
      unfold padOf at c2 ⊢
      split
      · next c3 =>
        rw [if_pos c3] at c2
        change i < (writeAt a _ _).length at c2
        show _ = (writeAt a _ _)[i]?
        have hne : List.replicate (32 * 2048 - a.length % (32 * 2048)) (0 : UInt8) ≠ [] := by
          intro he
          have := congrArg List.length he
          simp only [List.length_replicate, List.length_nil] at this
          omega
        rw [writeAt_length, if_neg hne] at c2
        simp only [List.length_replicate] at c2
        rw [writeAt_get, if_neg hne, if_neg c, if_pos (by simp only [List.length_replicate]; omega),
          List.getElem?_replicate, if_pos (by omega)]
      · next c3 =>
        rw [if_neg c3] at c2
        exact absurd c2 c
    · rfl

/-! ## Host directories -/

/-- If a run succeeds, each of its operations succeeded from some state. -/
theorem runOps_each {env : PackEnv σ} : ∀ {ops : List Op} {s s' : PackState σ}, runOps env ops s = (.ok (), s') →
    ∀ o ∈ ops, ∃ s1 s2, o.run env s1 = (.ok (), s2) := by
  intro ops
  induction ops with
  | nil => simp
  | cons o ops ih =>
    intro s s' h
    simp only [runOps, PM.bind_def] at h
    rcases hr : o.run env s with ⟨r, s1⟩
    rw [hr] at h
    cases r with
    | ok u =>
      simp only at h
      intro o' ho'
      rcases List.mem_cons.1 ho' with rfl | ho'
      · exact ⟨s, s1, hr⟩
      · exact ih h o' ho'
    | err e => cases h
    | panic => cases h
    | hang => cases h

theorem create_each {env : PackEnv σ} {fuel : Nat} {s s' : PackState σ}
    (h : createImage env fuel s = (.ok (), s')) :
    (createP env.readDir env.pathToString fuel).res = .ok () ∧
    ∀ o ∈ (createP env.readDir env.pathToString fuel).ops, ∃ s1 s2, o.run env s1 = (.ok (), s2) := by
  rw [createImage_eq] at h
  generalize createP env.readDir env.pathToString fuel = P at h ⊢
  obtain ⟨ops, res⟩ := P
  simp only [Pl.run, PM.bind_def] at h
  rcases hr : runOps env ops s with ⟨r, s1⟩
  rw [hr] at h
  cases r with
  | ok u =>
    simp only [PM.lift] at h
    cases res with
    | ok u => exact ⟨rfl, runOps_each hr⟩
    | err e => cases h
    | panic => cases h
    | hang => cases h
  | err e => cases h
  | panic => cases h
  | hang => cases h

/-- Every file of the source is copied, to a place after the descriptor. -/
theorem plan_copies {rd : ReadDir} {pts : Path → Str} {fuel : Nat} (hres : (createP rd pts fuel).res = .ok ())
    {p : Path} {e : FileEntry} (he : EntryIn rd p e) (hd : e.isDir = false) :
    ∃ s, 33 ≤ s ∧ Op.copy (p ++ [e.name]) (s * 2048) e.len ∈ (createP rd pts fuel).ops := by
  rcases createP_inv rd pts fuel with
    ⟨k1, k2⟩ | ⟨D, M, rootW, rootSize, next, recs, n', rest, hS, ⟨k1, rfl, k3, k4⟩ | ⟨k1, k2⟩⟩
  · exact absurd hres k2
  · obtain ⟨hp, l, hl, hm⟩ := he
    obtain ⟨x, hx, rfl⟩ := hS.recOf hp
    have hperm := hS.listingNames hx hl
    have hk : itemKey (itemOf M x.path e) ∈ x.r.fileListing.map listKey :=
      hperm.mem_iff.2 (List.mem_map_of_mem hm)
    obtain ⟨f, hf, hfk⟩ := List.mem_map.1 hk
    obtain ⟨lst, k1', k2', k3'⟩ := (hS.recOK hx).built
    rw [hl] at k1'; cases k1'
    have hlen := (k2' e hm).2 hd
    simp only [itemKey, listKey, Prod.mk.injEq] at hfk
    obtain ⟨q1, q2, q3⟩ := hfk
    have q1' : f.name = e.name := q1
    have q3' : f.isDir = false := by rw [q3]; exact hd
    have q2' : f.size = e.len := by
      rw [q2]
      simp only [Item.storedSize, itemOf, hd]
      simp only [Bool.false_eq_true, if_false]
      rw [UInt32.toNat_ofNat_of_lt' hlen]
    have hsec : 33 ≤ f.sector := by
      refine ((consecutive_le hS.consecutive.1).1 f ?_).1
      rw [placedAll, List.map_cons]
      refine List.mem_cons_of_mem _ (List.mem_map.2 ⟨(x.path ++ [f.name], f), ?_, rfl⟩)
      exact List.mem_flatMap.2 ⟨x, hx, List.mem_map.2 ⟨f, hf, rfl⟩⟩
    refine ⟨f.sector, hsec, ?_⟩
    rw [k4]
    refine List.mem_append_left _ (List.mem_append_right _ (List.mem_append_right _ ?_))
    refine List.mem_flatMap.2 ⟨x, hx, ?_⟩
    refine List.mem_cons_of_mem _ (List.mem_cons_of_mem _ (List.mem_flatMap.2 ⟨f, hf, ?_⟩))
    unfold opsEntry
    rw [q3', q1', q2']
    simp only [Bool.false_eq_true, if_false, List.mem_cons, List.not_mem_nil, or_false]
    exact .inr rfl
  · exact absurd hres k1

theorem stdBufCopy_panics (fs : HostFs) (root : HostPath) {p : Path} {data : Bytes} (b : Bytes) {out : Nat}
    (ho : 0 < out) (hp : fs (root ++ p) = some (.file data)) :
    stdBufCopy (stdRead fs root) p b 0 out data.length = .panic := by
  unfold stdBufCopy
  split
  · rfl
  · simp only [stdRead, hp, List.drop_zero, Res.ok_bind, List.length_take]
    rw [if_pos (by omega)]

theorem boxStd_file {r : DirReader} {fs : HostFs} {root : HostPath} {fuel : Nat} {b : Bytes} {s' : PackState Bytes}
    {p : Path} {e : FileEntry} (he : EntryIn (stdReadDir r fs root) p e) (hd : e.isDir = false) :
    createImage (boxStdEnv r fs root) fuel ⟨b, []⟩ ≠ (.ok (), s') := by
  intro h
  obtain ⟨h1, h2⟩ := create_each h
  obtain ⟨s, hs, ho⟩ := plan_copies (rd := stdReadDir r fs root) h1 he hd
  obtain ⟨s1, s2, hrun⟩ := h2 _ ho
  rcases std_entry_host (r := r) he with ⟨h3, _⟩ | ⟨_, data, h3, h4⟩
  · rw [hd] at h3; cases h3
  · simp only [Op.run, PM.bind_def, PM.onDev, boxStdEnv, h4,
      stdBufCopy_panics fs root s1.dev (show 0 < s * 2048 by omega) h3] at hrun
    cases hrun

/-- Without copies, the two sources do the same. -/
theorem boxStd_dirs {r : DirReader} {fs : HostFs} {root : HostPath} {fuel : Nat}
    (hdirs : ∀ p e, EntryIn (stdReadDir r fs root) p e → e.isDir = true) (s : PackState Bytes)
    (hres : (createP (stdReadDir r fs root) (stdFs r fs root).pathToString fuel).res = .ok ()) :
    createImage (boxStdEnv r fs root) fuel s = createImage (boxEnv (stdFs r fs root)) fuel s := by
  have hops : ∀ o ∈ (createP (stdReadDir r fs root) (stdFs r fs root).pathToString fuel).ops,
      ∀ s, o.run (boxStdEnv r fs root) s = o.run (boxEnv (stdFs r fs root)) s := by
    intro o ho s
    cases o with
    | report p => rfl
    | write off d => rfl
    | copy p out n =>
      obtain ⟨p', e, k1, k2, _⟩ := createP_fromSource hres _ ho
      rw [hdirs p' e k1] at k2
      cases k2
  have hrun : ∀ (ops : List Op), (∀ o ∈ ops, ∀ s, o.run (boxStdEnv r fs root) s = o.run (boxEnv (stdFs r fs root)) s) →
      runOps (boxStdEnv r fs root) ops = runOps (boxEnv (stdFs r fs root)) ops := by
    intro ops
    induction ops with
    | nil => intro _; rfl
    | cons o ops ih =>
      intro h
      simp only [runOps]
      rw [ih (fun o' ho' => h o' (by simp [ho'])), PM.ext (h o (by simp))]
  rw [createImage_eq, createImage_eq]
  show ((createP (stdReadDir r fs root) (stdFs r fs root).pathToString fuel).run (boxStdEnv r fs root) >>= fun _ => _) s =
    ((createP (stdReadDir r fs root) (stdFs r fs root).pathToString fuel).run (boxEnv (stdFs r fs root)) >>= fun _ => _) s
  simp only [Pl.run]
  rw [hrun _ hops]
  rfl

end Xdvdfs
