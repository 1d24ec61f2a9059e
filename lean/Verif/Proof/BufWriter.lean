import Verif.Model.BufWriter
import Verif.Proof.PackEnd

/-!
# Writing through a buffer
-/

namespace Xdvdfs

open TabWriter Spec Props

/-! ## Consecutive writes -/

theorem writeAt_nil (img : Bytes) (off : Nat) : writeAt img off [] = img := by simp [writeAt]

theorem writeAt_append (img : Bytes) (p : Nat) (a b : Bytes) :
    writeAt (writeAt img p a) (p + a.length) b = writeAt img p (a ++ b) := by
  by_cases ha : a = []
  · subst ha; simp [writeAt_nil]
  by_cases hb : b = []
  · subst hb; simp [writeAt_nil]
  have hab : a ++ b ≠ [] := by simp [ha]
  have hla : 0 < a.length := List.length_pos_iff.2 ha
  apply List.ext_getElem?
  intro i
  rw [writeAt_get, writeAt_get, writeAt_get, writeAt_length, if_neg ha, if_neg ha, if_neg hb, if_neg hab,
    List.length_append]
  by_cases h1 : i < p
  · rw [if_pos h1, if_pos h1, if_pos (by omega), if_pos (by omega)]
  · rw [if_neg h1, if_neg h1]
    by_cases h2 : i < p + a.length
    · rw [if_pos h2, if_pos h2, if_pos (by omega), if_pos (by omega), List.getElem?_append_left (by omega)]
    · rw [if_neg h2, if_neg h2]
      by_cases h3 : i < p + a.length + b.length
      · rw [if_pos h3, if_pos (by omega), List.getElem?_append_right (by omega)]
        congr 1; omega
      · rw [if_neg h3, if_neg (by omega)]

theorem applyTrace_chunks : ∀ (cs : List Bytes) (p : Nat) (img : Bytes),
    applyTrace img (chunksAt p cs) = writeAt img p cs.flatten := by
  intro cs
  induction cs with
  | nil => intro p img; simp [chunksAt, applyTrace, writeAt_nil]
  | cons c cs ih =>
    intro p img
    show applyTrace (writeAt img p c) (chunksAt (p + c.length) cs) = _
    rw [ih, writeAt_append, List.flatten_cons]

theorem applyTrace_one (img : Bytes) (off : Nat) (d : Bytes) : applyTrace img [(off, d)] = writeAt img off d := rfl

theorem chunksAt_append : ∀ (a b : List Bytes) (p : Nat),
    chunksAt p (a ++ b) = chunksAt p a ++ chunksAt (p + a.flatten.length) b := by
  intro a
  induction a with
  | nil => intro b p; simp [chunksAt]
  | cons c a ih =>
    intro b p
    simp only [List.cons_append, chunksAt, ih, List.flatten_cons, List.length_append, Nat.add_assoc]

/-- A prefix of the chunks' bytes is a torn trace. -/
theorem torn_chunks : ∀ (cs : List Bytes) (p : Nat) (img : Bytes) {pre rest : Bytes},
    cs.flatten = pre ++ rest →
    ∃ W, Torn W (chunksAt p cs) ∧ writeAt img p pre = applyTrace img W := by
  intro cs
  induction cs with
  | nil =>
    intro p img pre rest h
    have : pre = [] := (List.append_eq_nil_iff.1 h.symm).1
    subst this
    exact ⟨[], .refl _, writeAt_nil _ _⟩
  | cons c cs ih =>
    intro p img pre rest h
    rw [List.flatten_cons] at h
    by_cases hl : pre.length ≤ c.length
    · have hpre : pre = c.take pre.length := by
        have := congrArg (List.take pre.length) h
        rw [List.take_left, List.take_append_of_le_length hl] at this
        exact this.symm
      exact ⟨[(p, c.take pre.length)], .inr ⟨[], p, c, pre.length, chunksAt (p + c.length) cs, rfl, rfl⟩, by
        rw [← hpre]; rfl⟩
    · have h1 : pre.take c.length = c := by
        have := congrArg (List.take c.length) h
        rw [List.take_left, List.take_append_of_le_length (by omega)] at this
        exact this.symm
      have h2 : cs.flatten = pre.drop c.length ++ rest := by
        have := congrArg (List.drop c.length) h
        rw [List.drop_left, List.drop_append_of_le_length (by omega)] at this
        exact this
      obtain ⟨W, k1, k2⟩ := ih (p + c.length) (writeAt img p c) h2
      refine ⟨(p, c) :: W, k1.append_left [(p, c)], ?_⟩
      show _ = applyTrace (writeAt img p c) W
      rw [← k2, writeAt_append]
      congr 1
      rw [← h1]
      conv => lhs; rw [← List.take_append_drop c.length pre]
      rw [h1]

/-! ## The state of a buffered file -/

/-- The buffered file has been asked to make the writes `T`: the last bytes are in the buffer, except `lost`,
which were refused. -/
def Buffered (img0 : Bytes) (T : List (Nat × Bytes)) (lost : Bytes) (b : BufFile) : Prop :=
  ∃ T1 p cs pre, T = T1 ++ chunksAt p cs ∧ cs.flatten = pre ++ b.buf ++ lost ∧ b.pos = p + pre.length ∧
    b.img = writeAt (applyTrace img0 T1) p pre

variable {img0 : Bytes} {T : List (Nat × Bytes)} {lost : Bytes} {b : BufFile}

theorem Buffered.torn (h : Buffered img0 T lost b) : ∃ W, Torn W T ∧ b.img = applyTrace img0 W := by
  obtain ⟨T1, p, cs, pre, h1, h2, h3, h4⟩ := h
  rw [List.append_assoc] at h2
  obtain ⟨W, k1, k2⟩ := torn_chunks cs p (applyTrace img0 T1) h2
  exact ⟨T1 ++ W, by rw [h1]; exact k1.append_left T1, by rw [h4, k2, applyTrace_append]⟩

/-- An empty buffer means that everything has been written. -/
theorem Buffered.empty (h : Buffered img0 T [] b) (hb : b.buf = []) : b.img = applyTrace img0 T := by
  obtain ⟨T1, p, cs, pre, h1, h2, h3, h4⟩ := h
  rw [hb, List.append_nil, List.append_nil] at h2
  rw [h4, h1, applyTrace_append, applyTrace_chunks, h2]

theorem Buffered.start (off n : Nat) : Buffered img0 T [] ⟨applyTrace img0 T, off, [], n⟩ :=
  ⟨T, off, [], [], by simp [chunksAt], rfl, rfl, (writeAt_nil _ _).symm⟩

theorem flushBuf_spec (faults : Faults) (h : Buffered img0 T lost b) :
    Buffered img0 T lost (flushBuf faults b).2 ∧
    ((flushBuf faults b).1 = .ok () ∨ (flushBuf faults b).1 = .err .io) ∧
    ((flushBuf faults b).1 = .ok () → (flushBuf faults b).2.buf = [] ∧
      (flushBuf faults b).2.pos = b.pos + b.buf.length) := by
  obtain ⟨T1, p, cs, pre, h1, h2, h3, h4⟩ := h
  unfold flushBuf rawWrite
  split
  · next hb => exact ⟨⟨T1, p, cs, pre, h1, h2, h3, h4⟩, .inl rfl, fun _ => ⟨hb, by rw [hb]; rfl⟩⟩
  · split
    · refine ⟨⟨T1, p, cs, pre ++ b.buf, h1, ?_, ?_, ?_⟩, .inl rfl, fun _ => ⟨rfl, rfl⟩⟩
      · rw [h2]; simp
      · simp only [h3, List.length_append]; omega
      · simp only [h3, h4, writeAt_append]
    · next m _ =>
      refine ⟨⟨T1, p, cs, pre ++ b.buf.take m, h1, ?_, ?_, ?_⟩, .inr rfl, fun h => (by cases h)⟩
      · rw [h2]
        simp only [List.append_assoc]
        rw [← List.append_assoc (b.buf.take m), List.take_append_drop]
      · simp only [h3, List.length_append]; omega
      · simp only [h3, h4, writeAt_append]

theorem bufSeek_spec (faults : Faults) (off : Nat) (h : Buffered img0 T [] b) :
    (∃ n, bufSeek faults off b = (.ok (), ⟨applyTrace img0 T, off, [], n⟩)) ∨
    (∃ b', bufSeek faults off b = (.err .io, b') ∧ Buffered img0 T [] b') := by
  obtain ⟨h1, h2, h3⟩ := flushBuf_spec faults h
  unfold bufSeek
  rcases hf : flushBuf faults b with ⟨r, b1⟩
  rw [hf] at h1 h2 h3
  simp only at h1 h2 h3
  rcases h2 with rfl | rfl
  · left
    obtain ⟨k1, k2⟩ := h3 rfl
    refine ⟨b1.n, ?_⟩
    have := h1.empty k1
    obtain ⟨i, p, bu, n⟩ := b1
    simp only at this k1
    subst this; subst k1
    rfl
  · exact .inr ⟨b1, rfl, h1⟩

/-- The flush that may precede a write. -/
theorem maybeFlush_spec (faults : Faults) {c : Prop} [Decidable c] (h : Buffered img0 T [] b) :
    ∃ r b1, (if c then flushBuf faults b else (.ok (), b)) = (r, b1) ∧ Buffered img0 T [] b1 ∧
      (r = .ok () ∨ r = .err .io) ∧ (r = .ok () → b1.pos + b1.buf.length = b.pos + b.buf.length) ∧
      (r = .ok () → c → b1.buf = []) ∧ (¬ c → b1 = b ∧ r = .ok ()) := by
  split
  · next hc =>
    obtain ⟨h1, h2, h3⟩ := flushBuf_spec faults h
    refine ⟨(flushBuf faults b).1, (flushBuf faults b).2, rfl, h1, h2, ?_, fun hr _ => (h3 hr).1, fun hn => absurd hc hn⟩
    intro hr
    obtain ⟨k1, k2⟩ := h3 hr
    rw [k1, k2]; simp
  · next hc => exact ⟨.ok (), b, rfl, h, .inl rfl, fun _ => rfl, fun _ h => absurd h hc, fun _ => ⟨rfl, rfl⟩⟩

theorem bufPut_spec (pol : BufPolicy) (faults : Faults) (data : Bytes) (h : Buffered img0 T [] b) :
    ∃ r b', bufPut pol faults data b = (r, b') ∧ (r = .ok () ∨ r = .err .io) ∧
      (∃ lost, Buffered img0 (T ++ [(b.pos + b.buf.length, data)]) lost b' ∧ (r = .ok () → lost = [])) ∧
      (r = .ok () → b'.pos + b'.buf.length = b.pos + b.buf.length + data.length) := by
  unfold bufPut
  obtain ⟨r, b1, e, h1, h2, h3, h4, _⟩ := maybeFlush_spec faults
    (c := b.buf.length + data.length > pol.cap ∨ pol.cap ≤ data.length ∨ pol.early b data = true) h
  rw [e]
  have hex : ∀ (x : Bytes), b1.pos + b1.buf.length = b.pos + b.buf.length →
      ∃ T1 p cs pre, T ++ [(b.pos + b.buf.length, x)] = T1 ++ chunksAt p (cs ++ [x]) ∧
        cs.flatten = pre ++ b1.buf ∧ b1.pos = p + pre.length ∧ b1.img = writeAt (applyTrace img0 T1) p pre := by
    intro x hpos
    obtain ⟨T1, p, cs, pre, k1, k2, k3, k4⟩ := h1
    rw [List.append_nil] at k2
    refine ⟨T1, p, cs, pre, ?_, k2, k3, k4⟩
    rw [chunksAt_append, k1, ← hpos, k3, k2]
    simp [chunksAt, Nat.add_assoc]
  rcases h2 with rfl | rfl
  · simp only
    have hpos := h3 rfl
    obtain ⟨T1, p, cs, pre, k1, k2, k3, k4⟩ := hex data hpos
    split
    · next hc =>
      have hb1 := h4 rfl (.inr (.inl hc))
      rw [hb1, List.append_nil] at k2
      unfold rawWrite
      split
      · refine ⟨_, _, rfl, .inl rfl, ⟨[], ⟨T1, p, cs ++ [data], pre ++ data, k1, ?_, ?_, ?_⟩, fun _ => rfl⟩, ?_⟩
        · simp [k2, hb1]
        · simp only [k3, List.length_append]; omega
        · simp only [k3, k4, writeAt_append]
        · intro _
          simp only
          rw [← hpos]; omega
      · next m _ =>
        refine ⟨_, _, rfl, .inr rfl, ⟨data.drop m, ⟨T1, p, cs ++ [data], pre ++ data.take m, k1, ?_, ?_, ?_⟩,
          fun h => (by cases h)⟩, fun h => (by cases h)⟩
        · simp [k2, hb1]
        · simp only [k3, List.length_append]; omega
        · simp only [k3, k4, writeAt_append]
    · refine ⟨_, _, rfl, .inl rfl, ⟨[], ⟨T1, p, cs ++ [data], pre, k1, ?_, k3, k4⟩, fun _ => rfl⟩, ?_⟩
      · simp [k2]
      · intro _
        simp only [List.length_append]
        rw [← hpos]; omega
  · simp only
    refine ⟨_, _, rfl, .inr rfl, ⟨data, ?_, fun h => (by cases h)⟩, fun h => (by cases h)⟩
    -- the flush failed: the position is that of the failed flush
    obtain ⟨T1, p, cs, pre, k1, k2, k3, k4⟩ := h1
    rw [List.append_nil] at k2
    -- only a flush fails, so the bytes written and left add up to the old buffer
    have hpos : b1.pos + b1.buf.length = b.pos + b.buf.length := by
      split at e
      · unfold flushBuf rawWrite at e
        split at e
        · cases e
        · split at e
          · cases e
          · simp only [Prod.mk.injEq, true_and] at e
            subst e
            simp only [List.length_take, List.length_drop]; omega
      · cases e
    refine ⟨T1, p, cs ++ [data], pre, ?_, by simp [k2], k3, k4⟩
    rw [chunksAt_append, k1, ← hpos, k3, k2]
    simp [chunksAt, Nat.add_assoc]

/-- The file has stopped somewhere in the writes `T`. -/
def Stopped (img0 : Bytes) (T : List (Nat × Bytes)) (b : BufFile) : Prop :=
  ∃ T0 X lost, T = T0 ++ X ∧ Buffered img0 T0 lost b

theorem Buffered.stopped (h : Buffered img0 T lost b) (X : List (Nat × Bytes)) : Stopped img0 (T ++ X) b :=
  ⟨T, X, lost, rfl, h⟩

theorem Stopped.append (h : Stopped img0 T b) (X : List (Nat × Bytes)) : Stopped img0 (T ++ X) b := by
  obtain ⟨T0, Y, lost, rfl, h⟩ := h
  exact ⟨T0, Y ++ X, lost, by simp, h⟩

theorem Stopped.torn (h : Stopped img0 T b) : ∃ W, Torn W T ∧ b.img = applyTrace img0 W := by
  obtain ⟨T0, X, lost, rfl, h⟩ := h
  obtain ⟨W, h1, h2⟩ := h.torn
  exact ⟨W, h1.append_right X, h2⟩

theorem Stopped.drop (h : Stopped img0 T b) (faults : Faults) : Stopped img0 T (dropBuf faults b) := by
  obtain ⟨T0, X, lost, rfl, h⟩ := h
  exact ⟨T0, X, lost, rfl, (flushBuf_spec faults h).1⟩

theorem bufChunks_spec (pol : BufPolicy) (faults : Faults) : ∀ (cs : List Bytes) {T : List (Nat × Bytes)} {b : BufFile},
    Buffered img0 T [] b →
    ∃ r b', bufChunks pol faults cs b = (r, b') ∧ (r = .ok () ∨ r = .err .io) ∧
      Stopped img0 (T ++ chunksAt (b.pos + b.buf.length) cs) b' ∧
      (r = .ok () → Buffered img0 (T ++ chunksAt (b.pos + b.buf.length) cs) [] b') := by
  intro cs
  induction cs with
  | nil =>
    intro T b h
    exact ⟨_, _, rfl, .inl rfl, h.stopped _, fun _ => by simpa [chunksAt] using h⟩
  | cons c cs ih =>
    intro T b h
    obtain ⟨r, b1, e, h1, ⟨lost, h2, h3⟩, h4⟩ := bufPut_spec pol faults c h
    simp only [bufChunks, e, chunksAt]
    rcases h1 with rfl | rfl
    · simp only
      rw [h3 rfl] at h2
      obtain ⟨r, b', k1, k2, k3, k4⟩ := ih h2
      rw [h4 rfl, List.append_assoc] at k3 k4
      exact ⟨r, b', k1, k2, k3, k4⟩
    · refine ⟨_, _, rfl, .inr rfl, ?_, fun h => (by cases h)⟩
      have := h2.stopped (chunksAt (b.pos + b.buf.length + c.length) cs)
      rw [List.append_assoc] at this
      exact this

theorem bufWrite_spec (pol : BufPolicy) (faults : Faults) (off : Nat) (data : Bytes) (h : Buffered img0 T [] b) :
    ∃ r b', bufWrite pol faults off data b = (r, b') ∧ (r = .ok () ∨ r = .err .io) ∧
      Stopped img0 (T ++ [(off, data)]) b' ∧
      (r = .ok () → Buffered img0 (T ++ [(off, data)]) [] b') := by
  unfold bufWrite
  rcases bufSeek_spec faults off h with ⟨n, e⟩ | ⟨b', e, h'⟩
  · rw [e]
    simp only
    obtain ⟨r, b', k1, k2, ⟨lost, k3, k4⟩, _⟩ := bufPut_spec pol faults data (Buffered.start (img0 := img0) (T := T) off n)
    refine ⟨r, b', k1, k2, ?_, ?_⟩
    · have := k3.stopped []
      rw [List.append_nil] at this
      exact this
    · intro hr
      have := k3
      rw [k4 hr] at this
      exact this
  · rw [e]
    exact ⟨_, _, rfl, .inr rfl, h'.stopped _, fun h => (by cases h)⟩

/-- After a write has succeeded, the earlier writes are in the file and the buffer holds only this one. -/
theorem bufWrite_img (pol : BufPolicy) (faults : Faults) (off : Nat) (data : Bytes) (h : Buffered img0 T [] b)
    {b' : BufFile} (hw : bufWrite pol faults off data b = (.ok (), b')) :
    ∃ pre, data = pre ++ b'.buf ∧ b'.img = writeAt (applyTrace img0 T) off pre ∧
      (data.length < pol.cap → pre = []) := by
  unfold bufWrite at hw
  rcases bufSeek_spec faults off h with ⟨n, e⟩ | ⟨b1, e, h'⟩
  · rw [e] at hw
    simp only [bufPut, flushBuf, if_true, ite_self] at hw
    split at hw
    · unfold rawWrite at hw
      split at hw
      · next hc _ _ => cases hw; exact ⟨data, by simp, rfl, fun h => by omega⟩
      · cases hw
    · cases hw; exact ⟨[], by simp, (writeAt_nil _ _).symm, fun _ => rfl⟩
  · rw [e] at hw; cases hw

/-! ## Operations -/

theorem op_buf (fs : SourceFs) (pol : BufPolicy) (faults : Faults) (o : Op) (s : PackState BufFile)
    (h : Buffered img0 T [] s.dev) :
    Stopped img0 (T ++ opWrites fs o) (o.run (bufEnv fs pol faults) s).2.dev ∧
    ((o.run (bufEnv fs pol faults) s).1 = .ok () → OpOK fs o ∧
      Buffered img0 (T ++ opWrites fs o) [] (o.run (bufEnv fs pol faults) s).2.dev) ∧
    (o.run (bufEnv fs pol faults) s).2.log = s.log ++ opReports o := by
  cases o with
  | report p =>
    refine ⟨h.stopped _, fun _ => ⟨trivial, ?_⟩, rfl⟩
    show Buffered img0 (T ++ []) [] s.dev
    rw [List.append_nil]; exact h
  | write off d =>
    obtain ⟨r, b', e, h1, h2, h3⟩ := bufWrite_spec pol faults off d h
    simp only [Op.run, PM.onDev, bufEnv, e, opWrites]
    exact ⟨h2, fun hr => ⟨trivial, h3 hr⟩, by simp [opReports]⟩
  | copy p out n =>
    simp only [Op.run, PM.bind_def, PM.onDev, bufEnv, PM.pure_def, opWrites]
    rcases bufSeek_spec faults out h with ⟨m, e⟩ | ⟨b', e, h'⟩
    · rw [e]
      obtain ⟨r, b', k1, k2, k3, k4⟩ := bufChunks_spec pol faults (fs.copy p 0 n).1
        (Buffered.start (img0 := img0) (T := T) out m)
      simp only [List.length_nil, Nat.add_zero] at k3 k4
      simp only [k1]
      rcases k2 with rfl | rfl
      · simp only
        cases hc : (fs.copy p 0 n).2 with
        | ok k => exact ⟨k3, fun _ => ⟨⟨k, hc⟩, k4 rfl⟩, by simp [opReports]⟩
        | err e => exact ⟨k3, fun h => (by cases h), by simp [opReports]⟩
        | panic => exact ⟨k3, fun h => (by cases h), by simp [opReports]⟩
        | hang => exact ⟨k3, fun h => (by cases h), by simp [opReports]⟩
      · exact ⟨k3, fun h => (by cases h), by simp [opReports]⟩
    · rw [e]
      exact ⟨h'.stopped _, fun h => (by cases h), by simp [opReports]⟩

theorem Torn.split {W A B : List (Nat × Bytes)} (h : Torn W (A ++ B)) :
    Torn W A ∨ ∃ X, W = A ++ X ∧ Torn X B := by
  rcases h with ⟨rest, h⟩ | ⟨pre, off, d, m, rest, h, rfl⟩
  · rw [List.append_eq_append_iff] at h
    rcases h with ⟨as, h1, h2⟩ | ⟨bs, h1, h2⟩
    · exact .inr ⟨as, h1, .inl ⟨rest, h2⟩⟩
    · exact .inl (.inl ⟨bs, h1⟩)
  · rw [List.append_eq_append_iff] at h
    rcases h with ⟨as, h1, h2⟩ | ⟨bs, h1, h2⟩
    · exact .inr ⟨as ++ [(off, d.take m)], by rw [h1, List.append_assoc], .inr ⟨as, off, d, m, rest, h2, rfl⟩⟩
    · cases bs with
      | nil =>
        rw [List.append_nil] at h1
        exact .inr ⟨[(off, d.take m)], by rw [h1], .inr ⟨[], off, d, m, rest, h2.symm, rfl⟩⟩
      | cons x bs =>
        rw [List.cons_append, List.cons.injEq] at h2
        exact .inl (.inr ⟨pre, off, d, m, bs, by rw [h1, h2.1], rfl⟩)

theorem tornOps_of_torn {fs : SourceFs} {o : Op} {ops2 : List Op} : ∀ {ops1 : List Op} {W : List (Nat × Bytes)},
    (∀ o' ∈ ops1, OpOK fs o') → Torn W (ops1.flatMap (opWrites fs) ++ opWrites fs o) →
    TornOps fs W (ops1 ++ o :: ops2) := by
  intro ops1
  induction ops1 with
  | nil => intro W _ h; exact .here h
  | cons a ops1 ih =>
    intro W hok h
    rw [List.flatMap_cons, List.append_assoc] at h
    rcases h.split with h' | ⟨X, rfl, h'⟩
    · exact .here h'
    · exact .next (hok a (by simp)) (ih (fun o' ho' => hok o' (by simp [ho'])) h')

theorem tornOps_all {fs : SourceFs} : ∀ {ops : List Op} {W : List (Nat × Bytes)},
    (∀ o' ∈ ops, OpOK fs o') → Torn W (ops.flatMap (opWrites fs)) → TornOps fs W ops := by
  intro ops
  induction ops with
  | nil => intro W _ h; rw [h.nil]; exact .done
  | cons a ops ih =>
    intro W hok h
    rw [List.flatMap_cons] at h
    rcases h.split with h' | ⟨X, rfl, h'⟩
    · exact .here h'
    · exact .next (hok a (by simp)) (ih (fun o' ho' => hok o' (by simp [ho'])) h')

theorem runOps_buf (fs : SourceFs) (pol : BufPolicy) (faults : Faults) : ∀ (ops : List Op)
    {T : List (Nat × Bytes)} (s : PackState BufFile), Buffered img0 T [] s.dev →
    ∃ r s', runOps (bufEnv fs pol faults) ops s = (r, s') ∧
      (r = .ok () → Buffered img0 (T ++ ops.flatMap (opWrites fs)) [] s'.dev ∧ (∀ o ∈ ops, OpOK fs o) ∧
        s'.log = s.log ++ ops.flatMap opReports) ∧
      (r ≠ .ok () → ∃ ops1 o ops2, ops = ops1 ++ o :: ops2 ∧ (∀ o' ∈ ops1, OpOK fs o') ∧
        Stopped img0 (T ++ (ops1.flatMap (opWrites fs) ++ opWrites fs o)) s'.dev) := by
  intro ops
  induction ops with
  | nil =>
    intro T s h
    exact ⟨.ok (), s, rfl, fun _ => ⟨by simpa using h, by simp, by simp⟩, fun h => absurd rfl h⟩
  | cons o ops ih =>
    intro T s h
    obtain ⟨h1, h2, h3⟩ := op_buf fs pol faults o s h
    simp only [runOps, PM.bind_def]
    rcases hw : o.run (bufEnv fs pol faults) s with ⟨r, s1⟩
    rw [hw] at h1 h2 h3
    simp only at h1 h2 h3
    have hfail : ∃ ops1 o' ops2, o :: ops = ops1 ++ o' :: ops2 ∧ (∀ o'' ∈ ops1, OpOK fs o'') ∧
        Stopped img0 (T ++ (ops1.flatMap (opWrites fs) ++ opWrites fs o')) s1.dev :=
      ⟨[], o, ops, rfl, by simp, by simpa using h1⟩
    cases r with
    | ok u =>
      obtain ⟨e1, e2⟩ := h2 rfl
      obtain ⟨r, s', k1, k2, k3⟩ := ih s1 e2
      refine ⟨r, s', k1, ?_, ?_⟩
      · intro hr
        obtain ⟨m1, m2, m3⟩ := k2 hr
        refine ⟨by simpa [List.append_assoc] using m1, ?_, by rw [m3, h3]; simp⟩
        intro o' ho'
        rcases List.mem_cons.1 ho' with rfl | ho'
        · exact e1
        · exact m2 o' ho'
      · intro hr
        obtain ⟨ops1, o', ops2, m1, m2, m3⟩ := k3 hr
        refine ⟨o :: ops1, o', ops2, by rw [m1]; rfl, ?_, by simpa [List.append_assoc] using m3⟩
        intro o'' ho''
        rcases List.mem_cons.1 ho'' with rfl | ho''
        · exact e1
        · exact m2 o'' ho''
    | err e => exact ⟨_, _, rfl, fun h => (by cases h), fun _ => hfail⟩
    | panic => exact ⟨_, _, rfl, fun h => (by cases h), fun _ => hfail⟩
    | hang => exact ⟨_, _, rfl, fun h => (by cases h), fun _ => hfail⟩

/-! ## A whole run -/

/-- The tables end beyond the place of the volume descriptor. -/
theorem PlanShape.data_length {fs : SourceFs} {D M rootW rootSize next recs n'}
    (h : PlanShape fs.readDir fs.pathToString D M rootW rootSize next recs n' []) (img0 : Bytes) :
    67584 ≤ (applyTrace img0 ((planOps fs.pathToString D recs).flatMap (opWrites fs))).length := by
  have hs := h.split
  rw [List.append_nil] at hs
  have hh := h.head
  cases hrecs : recs with
  | nil => rw [hs, hrecs] at hh; cases hh
  | cons x xs =>
    rw [hs, hrecs] at hh
    simp only [List.map_cons, List.head?_cons, Option.some.injEq, Prod.mk.injEq] at hh
    have hc := h.chain
    rw [hrecs] at hc
    obtain ⟨hg, n1, hr, _⟩ := hc
    rw [hh.1] at hg
    have hsec : x.sector = 33 := (Option.some.inj hg).symm
    obtain ⟨l, k1, k2, k3⟩ := (h.recOK (x := x) (by rw [hrecs]; simp)).built
    have hne : x.r.entryTable ≠ [] := by
      obtain ⟨_, ⟨_, h2, _, _⟩ | ⟨_, A', T', lens, es, W, hne, _, _, _⟩⟩ := table_written k3 hr
      · rw [h2]; intro he; have := congrArg List.length he; rw [List.length_replicate] at this; cases this
      · obtain ⟨f1, _, _, _, f5, f6⟩ := W.facts
        intro he
        rw [he] at f6
        have hz : total 0 lens = 0 := by
          have := (roundUp_spec (total 0 lens)).1
          rw [← f6] at this
          simpa using this
        cases hl : lens with
        | nil => rw [hl] at f1; exact hne (List.length_eq_zero_iff.1 f1.symm)
        | cons a ls =>
          rw [hl] at hz f5
          have := (f5 a (by simp)).2.1
          have := le_total (place 0 a + a) ls
          simp only [total] at hz
          omega
    have := (applyTrace_length (W := (planOps fs.pathToString D (x :: xs)).flatMap (opWrites fs)) (img := img0)).2
      (x.sector * sectorSize, x.r.entryTable) (by
        simp only [planOps, List.flatMap_append, List.mem_append]
        right; right
        simp [opsRec, opWrites]) hne
    simp only [hsec, sectorSize] at this
    have hpos := List.length_pos_iff.2 hne
    omega

/-- The writes that a run may have made. -/
def RunWrites (fs : SourceFs) (fuel : Nat) (W : List (Nat × Bytes)) : Prop :=
  TornOps fs W (createP fs.readDir fs.pathToString fuel).ops ∨
  ((createP fs.readDir fs.pathToString fuel).res = .ok () ∧
    (∀ o ∈ (createP fs.readDir fs.pathToString fuel).ops, OpOK fs o) ∧
    ∃ Q, W = (createP fs.readDir fs.pathToString fuel).ops.flatMap (opWrites fs) ++ Q ∧
      Torn Q (padOf (applyTrace [] ((createP fs.readDir fs.pathToString fuel).ops.flatMap (opWrites fs)))))

theorem padOf_pos {img : Bytes} (h : img.length % (32 * 2048) > 0) :
    padOf img = [(img.length, List.replicate (32 * 2048 - img.length % (32 * 2048)) 0)] := by
  unfold padOf; rw [if_pos h]

theorem padOf_neg {img : Bytes} (h : ¬ img.length % (32 * 2048) > 0) : padOf img = [] := by
  unfold padOf; rw [if_neg h]

theorem createImage_buf (fs : SourceFs) (pol : BufPolicy) (faults : Faults) (fuel : Nat) :
    ∃ r s', createImage (bufEnv fs pol faults) fuel ⟨⟨[], 0, [], 0⟩, []⟩ = (r, s') ∧
      (∃ T, Stopped [] T s'.dev ∧ ∀ W, Torn W T → RunWrites fs fuel W) ∧
      (r = .ok () → (createP fs.readDir fs.pathToString fuel).res = .ok () ∧
        (∀ o ∈ (createP fs.readDir fs.pathToString fuel).ops, OpOK fs o) ∧
        Buffered [] ((createP fs.readDir fs.pathToString fuel).ops.flatMap (opWrites fs) ++
          padOf (applyTrace [] ((createP fs.readDir fs.pathToString fuel).ops.flatMap (opWrites fs)))) [] s'.dev ∧
        (∃ T0 off d, (createP fs.readDir fs.pathToString fuel).ops.flatMap (opWrites fs) ++
            padOf (applyTrace [] ((createP fs.readDir fs.pathToString fuel).ops.flatMap (opWrites fs))) =
            T0 ++ [(off, d)] ∧ d ≠ [] ∧ d.length < 65536 ∧
          (d.length < pol.cap → s'.dev.buf = d ∧ s'.dev.img = applyTrace [] T0)) ∧
        s'.log = (createP fs.readDir fs.pathToString fuel).ops.flatMap opReports ++ [.finishedPacking]) := by
  have hinv := createP_inv fs.readDir fs.pathToString fuel
  unfold RunWrites
  rw [createImage_eq]
  change ∃ r s', ((createP fs.readDir fs.pathToString fuel).run (bufEnv fs pol faults) >>= fun _ =>
    padImage (bufEnv fs pol faults) >>= fun _ => PM.report .finishedPacking) _ = (r, s') ∧ _
  generalize createP fs.readDir fs.pathToString fuel = P at hinv ⊢
  have hstart : Buffered [] ([] : List (Nat × Bytes)) [] (⟨⟨[], 0, [], 0⟩, []⟩ : PackState BufFile).dev :=
    Buffered.start (img0 := []) (T := []) 0 0
  obtain ⟨r, s1, e, h1, h2⟩ := runOps_buf fs pol faults P.ops ⟨⟨[], 0, [], 0⟩, []⟩ hstart
  simp only [PM.bind_def, Pl.run, e]
  have hfail : r ≠ .ok () → ∃ T, Stopped [] T s1.dev ∧ ∀ W, Torn W T → (TornOps fs W P.ops ∨
      (P.res = .ok () ∧ (∀ o ∈ P.ops, OpOK fs o) ∧ ∃ Q, W = P.ops.flatMap (opWrites fs) ++ Q ∧
        Torn Q (padOf (applyTrace [] (P.ops.flatMap (opWrites fs)))))) := by
    intro hr
    obtain ⟨ops1, o, ops2, k1, k2, k3⟩ := h2 hr
    rw [List.nil_append] at k3
    refine ⟨_, k3, fun W hW => .inl ?_⟩
    rw [k1]
    exact tornOps_of_torn k2 hW
  cases r with
  | err x => exact ⟨_, _, rfl, hfail (by simp), fun h => (by cases h)⟩
  | panic => exact ⟨_, _, rfl, hfail (by simp), fun h => (by cases h)⟩
  | hang => exact ⟨_, _, rfl, hfail (by simp), fun h => (by cases h)⟩
  | ok u =>
    obtain ⟨m1, m2, m3⟩ := h1 rfl
    rw [List.nil_append] at m1 m3
    have hpl : ∃ T, Stopped [] T s1.dev ∧ ∀ W, Torn W T → (TornOps fs W P.ops ∨
        (P.res = .ok () ∧ (∀ o ∈ P.ops, OpOK fs o) ∧ ∃ Q, W = P.ops.flatMap (opWrites fs) ++ Q ∧
          Torn Q (padOf (applyTrace [] (P.ops.flatMap (opWrites fs)))))) :=
      ⟨P.ops.flatMap (opWrites fs), by have := m1.stopped []; rwa [List.append_nil] at this,
        fun W hW => .inl (tornOps_all m2 hW)⟩
    simp only [PM.lift]
    cases hp : P.res with
    | err x => rw [hp] at hpl; exact ⟨_, _, rfl, hpl, fun h => (by cases h)⟩
    | panic => rw [hp] at hpl; exact ⟨_, _, rfl, hpl, fun h => (by cases h)⟩
    | hang => rw [hp] at hpl; exact ⟨_, _, rfl, hpl, fun h => (by cases h)⟩
    | ok u =>
      -- the length of the file is the length of the image
      have hboth : s1.dev.img.length = (applyTrace [] (P.ops.flatMap (opWrites fs))).length ∧
          ∃ T0 off d, P.ops.flatMap (opWrites fs) = T0 ++ [(off, d)] ∧ d ≠ [] ∧ d.length < 65536 ∧
            (d.length < pol.cap → s1.dev.buf = d ∧ s1.dev.img = applyTrace [] T0) := by
        rcases hinv with ⟨k1, k2⟩ | ⟨D, M, rootW, rootSize, next, recs, n', rest, hS, ⟨k1, rfl, k3, k4⟩ | ⟨k1, k2⟩⟩
        · exact absurd hp k2
        · have hl := hS.data_length []
          rw [k4, runOps_append, PM.bind_def] at e
          obtain ⟨r0, s0, e0, g1, _⟩ := runOps_buf fs pol faults (planOps fs.pathToString D recs)
            ⟨⟨[], 0, [], 0⟩, []⟩ hstart
          rw [e0] at e
          cases r0 with
          | ok u =>
            simp only [runOps, PM.bind_def, descOp, Op.run, PM.onDev, PM.pure_def] at e
            obtain ⟨g1, _, _⟩ := g1 rfl
            rcases hw : (bufEnv fs pol faults).write (32 * sectorSize) (rootDesc 33 rootSize) s0.dev with ⟨rw1, b1⟩
            rw [hw] at e
            cases rw1 with
            | ok u =>
              simp only [Prod.mk.injEq, true_and] at e
              subst e
              obtain ⟨pre, q1, q2, q3⟩ := bufWrite_img pol faults _ _ g1 hw
              have hpl : pre.length ≤ 2048 := by
                have := congrArg List.length q1
                rw [rootDesc_length, List.length_append] at this
                omega
              have hf : (planOps fs.pathToString D recs ++ [descOp rootSize]).flatMap (opWrites fs) =
                  (planOps fs.pathToString D recs).flatMap (opWrites fs) ++ [(32 * 2048, rootDesc 33 rootSize)] := by
                rw [List.flatMap_append]; rfl
              rw [k4, hf]
              refine ⟨?_, _, _, _, rfl, ?_, by rw [rootDesc_length]; omega, ?_⟩
              rotate_left
              · intro he; have := congrArg List.length he; rw [rootDesc_length] at this; cases this
              · intro hc
                have := q3 hc
                subst this
                rw [writeAt_nil, List.nil_append] at q2
                rw [List.nil_append] at q1
                exact ⟨q1.symm, q2⟩
              rw [applyTrace_append, applyTrace_one]
              simp only
              rw [q2, List.nil_append, writeAt_length, writeAt_length, rootDesc_length]
              generalize (applyTrace [] ((planOps fs.pathToString D recs).flatMap (opWrites fs))).length = X at hl
              simp only [sectorSize]
              split <;> split <;> omega
            | _ => simp at e
          | _ => simp at e
        · exact absurd hp k1
      obtain ⟨hlen, hlast⟩ := hboth
      have hpad : ∀ {b : BufFile}, Stopped [] (P.ops.flatMap (opWrites fs) ++
            padOf (applyTrace [] (P.ops.flatMap (opWrites fs)))) b →
          ∃ T, Stopped [] T b ∧ ∀ W, Torn W T → (TornOps fs W P.ops ∨
            (True ∧ (∀ o ∈ P.ops, OpOK fs o) ∧ ∃ Q, W = P.ops.flatMap (opWrites fs) ++ Q ∧
              Torn Q (padOf (applyTrace [] (P.ops.flatMap (opWrites fs)))))) := by
        intro b hb
        refine ⟨_, hb, fun W hW => ?_⟩
        rcases hW.split with h | ⟨X, h1, h2⟩
        · exact .inl (tornOps_all m2 h)
        · exact .inr ⟨trivial, m2, X, h1, h2⟩
      simp only [padImage, PM.bind_def, devLen, bufEnv, hlen]
      by_cases hc : (applyTrace [] (P.ops.flatMap (opWrites fs))).length % (32 * 2048) > 0
      · have hpo := padOf_pos hc
        obtain ⟨r2, b2, e2, g1, g2, g3⟩ := bufWrite_spec pol faults
          (applyTrace [] (P.ops.flatMap (opWrites fs))).length
          (List.replicate (32 * 2048 - (applyTrace [] (P.ops.flatMap (opWrites fs))).length % (32 * 2048)) 0) m1
        rw [← hpo] at g2 g3
        rw [if_pos hc]
        simp only [PM.onDev, e2]
        rcases g1 with rfl | rfl
        · refine ⟨_, _, rfl, hpad g2, fun _ => ⟨by trivial, m2, g3 rfl, ⟨_, _, _, by rw [hpo], ?_, ?_, ?_⟩, by rw [← m3]⟩⟩
          · intro he; have := congrArg List.length he
            rw [List.length_replicate] at this
            simp only [List.length_nil] at this
            omega
          · rw [List.length_replicate]; omega
          · intro hcap
            obtain ⟨pre, q1, q2, q3⟩ := bufWrite_img pol faults _ _ m1 e2
            have := q3 hcap
            subst this
            rw [writeAt_nil] at q2
            rw [List.nil_append] at q1
            exact ⟨q1.symm, q2⟩
        · exact ⟨_, _, rfl, hpad g2, fun h => (by cases h)⟩
      · rw [if_neg hc]
        have hpo := padOf_neg hc
        have m1' : Buffered [] (P.ops.flatMap (opWrites fs) ++ padOf (applyTrace [] (P.ops.flatMap (opWrites fs)))) [] s1.dev := by
          rw [hpo, List.append_nil]; exact m1
        have m1s := m1'.stopped []
        rw [List.append_nil] at m1s
        exact ⟨_, _, rfl, hpad m1s, fun _ => ⟨by trivial, m2, m1', by rw [hpo, List.append_nil]; exact hlast, by rw [← m3]⟩⟩

/-! ## Faults that do not occur during a run do not matter -/

/-- The result depends only on the faults of the writes made, and the number of writes does not decrease. -/
def StableAt {S α : Type} (cnt : S → Nat) (m : Nat) (F : Faults → Res α × S) : Prop :=
  ∀ f, m ≤ cnt (F f).2 ∧ ∀ g : Faults, (∀ n, n < cnt (F f).2 → g n = f n) → F g = F f

theorem StableAt.const {S α : Type} {cnt : S → Nat} (x : Res α × S) : StableAt cnt (cnt x.2) (fun _ => x) :=
  fun _ => ⟨Nat.le_refl _, fun _ _ => rfl⟩

theorem StableAt.bind {S α β : Type} {cnt : S → Nat} {m : Nat} {F : Faults → Res α × S}
    {K : Faults → Res α × S → Res β × S} (hF : StableAt cnt m F)
    (hK : ∀ x, StableAt cnt (cnt x.2) (fun f => K f x)) : StableAt cnt m (fun f => K f (F f)) := by
  intro f
  obtain ⟨h1, h2⟩ := hF f
  obtain ⟨k1, k2⟩ := hK (F f) f
  refine ⟨Nat.le_trans h1 k1, fun g hg => ?_⟩
  have e := h2 g (fun n hn => hg n (Nat.lt_of_lt_of_le hn k1))
  show K g (F g) = K f (F f)
  rw [e]
  exact k2 g hg

theorem rawWrite_stable (data : Bytes) (b : BufFile) : StableAt BufFile.n b.n (fun f => rawWrite f data b) := by
  intro f
  have hn : (rawWrite f data b).2.n = b.n + 1 := by unfold rawWrite; split <;> rfl
  refine ⟨by simp only [hn]; omega, fun g hg => ?_⟩
  have := hg b.n (by simp only [hn]; omega)
  simp only [rawWrite, this]

theorem flushBuf_stable (b : BufFile) : StableAt BufFile.n b.n (fun f => flushBuf f b) := by
  intro f
  simp only [flushBuf]
  split
  · exact ⟨Nat.le_refl _, fun _ _ => rfl⟩
  · have hn : (rawWrite f b.buf b).2.n = b.n + 1 := by unfold rawWrite; split <;> rfl
    constructor
    · split <;> (simp only [hn]; omega)
    · intro g hg
      have : g b.n = f b.n := by
        apply hg
        split <;> (simp only [hn]; omega)
      simp only [rawWrite, this]

theorem bufSeek_stable (off : Nat) (b : BufFile) : StableAt BufFile.n b.n (fun f => bufSeek f off b) := by
  refine (flushBuf_stable b).bind (K := fun _ x => match x with
    | (.ok (), b) => (.ok (), { b with pos := off })
    | (e, b) => (e, b)) ?_
  rintro ⟨r, b⟩
  cases r <;> exact fun _ => ⟨Nat.le_refl _, fun _ _ => rfl⟩

theorem bufPut_stable (pol : BufPolicy) (data : Bytes) (b : BufFile) :
    StableAt BufFile.n b.n (fun f => bufPut pol f data b) := by
  refine StableAt.bind (F := fun f => if b.buf.length + data.length > pol.cap ∨ pol.cap ≤ data.length ∨ pol.early b data
      then flushBuf f b else (.ok (), b)) (K := fun f x => match x with
    | (.ok (), b) => if pol.cap ≤ data.length then rawWrite f data b else (.ok (), { b with buf := b.buf ++ data })
    | (e, b) => (e, b)) ?_ ?_
  · intro f
    dsimp only
    split
    · exact flushBuf_stable b f
    · exact ⟨Nat.le_refl _, fun _ _ => rfl⟩
  · rintro ⟨r, b⟩
    cases r with
    | ok u =>
      intro f
      dsimp only
      split
      · exact rawWrite_stable data b f
      · exact ⟨Nat.le_refl _, fun _ _ => rfl⟩
    | _ => exact fun _ => ⟨Nat.le_refl _, fun _ _ => rfl⟩

theorem bufWrite_stable (pol : BufPolicy) (off : Nat) (data : Bytes) (b : BufFile) :
    StableAt BufFile.n b.n (fun f => bufWrite pol f off data b) := by
  refine (bufSeek_stable off b).bind (K := fun f x => match x with
    | (.ok (), b) => bufPut pol f data b
    | (e, b) => (e, b)) ?_
  rintro ⟨r, b⟩
  cases r with
  | ok u => exact bufPut_stable pol data b
  | _ => exact fun _ => ⟨Nat.le_refl _, fun _ _ => rfl⟩

theorem bufChunks_stable (pol : BufPolicy) : ∀ (cs : List Bytes) (b : BufFile),
    StableAt BufFile.n b.n (fun f => bufChunks pol f cs b) := by
  intro cs
  induction cs with
  | nil => intro b; exact fun _ => ⟨Nat.le_refl _, fun _ _ => rfl⟩
  | cons c cs ih =>
    intro b
    refine (bufPut_stable pol c b).bind (K := fun f x => match x with
      | (.ok (), b) => bufChunks pol f cs b
      | (e, b) => (e, b)) ?_
    rintro ⟨r, b⟩
    cases r with
    | ok u => exact ih b
    | _ => exact fun _ => ⟨Nat.le_refl _, fun _ _ => rfl⟩

theorem copyIn_stable (fs : SourceFs) (pol : BufPolicy) (p : Path) (i o n : Nat) (b : BufFile) :
    StableAt BufFile.n b.n (fun f => (bufEnv fs pol f).copyIn p i o n b) := by
  refine (bufSeek_stable o b).bind (K := fun f x => match x with
    | (.ok (), b) =>
      match bufChunks pol f (fs.copy p i n).1 b with
      | (.ok (), b) => ((fs.copy p i n).2, b)
      | (.err e, b) => (.err e, b)
      | (.panic, b) => (.panic, b)
      | (.hang, b) => (.hang, b)
    | (.err e, b) => (.err e, b)
    | (.panic, b) => (.panic, b)
    | (.hang, b) => (.hang, b)) ?_
  rintro ⟨r, b⟩
  cases r with
  | ok u =>
    refine (bufChunks_stable pol (fs.copy p i n).1 b).bind (K := fun _ x => match x with
      | (.ok (), b) => ((fs.copy p i n).2, b)
      | (.err e, b) => (.err e, b)
      | (.panic, b) => (.panic, b)
      | (.hang, b) => (.hang, b)) ?_
    rintro ⟨r, b⟩
    cases r <;> exact fun _ => ⟨Nat.le_refl _, fun _ _ => rfl⟩
  | _ => exact fun _ => ⟨Nat.le_refl _, fun _ _ => rfl⟩

/-- Stability of a step of the packer. -/
def StablePM {α : Type} (F : Faults → PM BufFile α) : Prop :=
  ∀ s, StableAt (fun s : PackState BufFile => s.dev.n) s.dev.n (fun f => F f s)

theorem StablePM.const {α : Type} (x : PM BufFile α) (h : ∀ s, (x s).2.dev = s.dev) : StablePM (fun _ => x) := by
  intro s f
  exact ⟨by simp only [h]; exact Nat.le_refl _, fun _ _ => rfl⟩

theorem StablePM.bind {α β : Type} {F : Faults → PM BufFile α} {K : Faults → α → PM BufFile β}
    (hF : StablePM F) (hK : ∀ a, StablePM (fun f => K f a)) : StablePM (fun f => F f >>= K f) := by
  intro s
  refine (hF s).bind (K := fun f x => ((fun _ => x : PM BufFile α) >>= K f) s) ?_
  rintro ⟨r, s'⟩
  cases r with
  | ok a => exact hK a s'
  | _ => exact fun _ => ⟨Nat.le_refl _, fun _ _ => rfl⟩

theorem StablePM.onDev {α : Type} {F : Faults → BufFile → Res α × BufFile}
    (h : ∀ b, StableAt BufFile.n b.n (fun f => F f b)) : StablePM (fun f => PM.onDev (F f)) := by
  intro s f
  obtain ⟨h1, h2⟩ := h s.dev f
  refine ⟨h1, fun g hg => ?_⟩
  have e : F g s.dev = F f s.dev := h2 g hg
  simp only [PM.onDev]
  rw [e]

theorem runOps_stable (fs : SourceFs) (pol : BufPolicy) : ∀ ops, StablePM (fun f => runOps (bufEnv fs pol f) ops) := by
  intro ops
  induction ops with
  | nil => exact StablePM.const _ (fun _ => rfl)
  | cons o ops ih =>
    refine StablePM.bind (F := fun f => o.run (bufEnv fs pol f)) (K := fun f _ => runOps (bufEnv fs pol f) ops) ?_ (fun _ => ih)
    cases o with
    | report p => exact StablePM.const _ (fun _ => rfl)
    | write off d => exact StablePM.onDev (fun b => bufWrite_stable pol off d b)
    | copy p out n =>
      exact StablePM.bind (F := fun f => PM.onDev ((bufEnv fs pol f).copyIn p 0 out n)) (K := fun _ _ => pure ())
        (StablePM.onDev (fun b => copyIn_stable fs pol p 0 out n b)) (fun _ => StablePM.const _ (fun _ => rfl))

theorem createImage_stable (fs : SourceFs) (pol : BufPolicy) (fuel : Nat) :
    StablePM (fun f => createImage (bufEnv fs pol f) fuel) := by
  have : (fun f => createImage (bufEnv fs pol f) fuel) = fun f =>
      ((createP fs.readDir fs.pathToString fuel).run (bufEnv fs pol f) >>= fun _ =>
        padImage (bufEnv fs pol f) >>= fun _ => PM.report .finishedPacking) :=
    funext (fun f => createImage_eq (bufEnv fs pol f) fuel)
  rw [this]
  refine StablePM.bind (K := fun f _ => padImage (bufEnv fs pol f) >>= fun _ => PM.report .finishedPacking)
    (StablePM.bind (F := fun f => runOps (bufEnv fs pol f) (createP fs.readDir fs.pathToString fuel).ops)
      (K := fun _ _ => PM.lift _) (runOps_stable fs pol _) (fun _ => StablePM.const _ (fun _ => rfl))) (fun _ => ?_)
  refine StablePM.bind (K := fun _ _ => PM.report .finishedPacking) ?_ (fun _ => StablePM.const _ (fun _ => rfl))
  refine StablePM.bind (F := fun f => devLen (bufEnv fs pol f)) (K := fun f len =>
    if len % (32 * 2048) > 0 then
      PM.onDev ((bufEnv fs pol f).write len (List.replicate (32 * 2048 - len % (32 * 2048)) 0))
    else pure ()) (fun s f => ⟨Nat.le_refl _, fun _ _ => rfl⟩) ?_
  intro len
  split
  · exact StablePM.onDev (fun b => bufWrite_stable pol _ _ b)
  · exact StablePM.const _ (fun _ => rfl)

/-! ## Runs without faults -/

/-- A device on which every write succeeds. -/
structure Faultless (fs : SourceFs) (env : PackEnv σ) : Prop where
  readDir : env.readDir = fs.readDir
  pts : env.pathToString = fs.pathToString
  write : ∀ off d s, (env.write off d s).1 = .ok ()
  copy : ∀ p i o n s, (env.copyIn p i o n s).1 = (fs.copy p i n).2
  len : ∀ s, ∃ n, env.len s = .ok n

def opResult (fs : SourceFs) : List Op → Res Unit
  | [] => .ok ()
  | .copy p _ n :: ops =>
    match (fs.copy p 0 n).2 with
    | .ok _ => opResult fs ops
    | .err e => .err e
    | .panic => .panic
    | .hang => .hang
  | _ :: ops => opResult fs ops

theorem Faultless.runOps {fs : SourceFs} {env : PackEnv σ} (h : Faultless fs env) : ∀ (ops : List Op) (s : PackState σ),
    (runOps env ops s).1 = opResult fs ops := by
  intro ops
  induction ops with
  | nil => intro s; rfl
  | cons o ops ih =>
    intro s
    simp only [Xdvdfs.runOps, PM.bind_def]
    cases o with
    | report p => exact ih _
    | write off d =>
      have := h.write off d s.dev
      simp only [Op.run, PM.onDev, this]
      exact ih _
    | copy p out n =>
      have := h.copy p 0 out n s.dev
      simp only [Op.run, PM.onDev, PM.bind_def, this, opResult, PM.pure_def]
      cases (fs.copy p 0 n).2 with
      | ok k => exact ih _
      | _ => rfl

theorem Faultless.createImage {fs : SourceFs} {env : PackEnv σ} (h : Faultless fs env) (fuel : Nat) (s : PackState σ) :
    (createImage env fuel s).1 = match opResult fs (createP fs.readDir fs.pathToString fuel).ops with
      | .ok _ => (createP fs.readDir fs.pathToString fuel).res
      | e => e := by
  rw [createImage_eq, h.readDir, h.pts]
  change (((createP fs.readDir fs.pathToString fuel).run env >>= fun _ =>
    padImage env >>= fun _ => PM.report .finishedPacking) s).1 = _
  generalize createP fs.readDir fs.pathToString fuel = P
  simp only [PM.bind_def, Pl.run]
  have hr := h.runOps P.ops s
  rcases hw : Xdvdfs.runOps env P.ops s with ⟨r, s1⟩
  rw [hw] at hr
  simp only at hr
  rw [← hr]
  cases r with
  | ok u =>
    simp only [PM.lift]
    cases hp : P.res with
    | ok u =>
      simp only
      have hpad : (padImage env s1).1 = .ok () := by
        obtain ⟨n, hn⟩ := h.len s1.dev
        simp only [padImage, PM.bind_def, devLen, hn]
        split
        · exact h.write _ _ _
        · rfl
      rcases hq : padImage env s1 with ⟨r2, s2⟩
      rw [hq] at hpad
      simp only at hpad
      subst hpad
      rfl
    | _ => rfl
  | _ => rfl

theorem bufPut_ok (pol : BufPolicy) (d : Bytes) (b : BufFile) : (bufPut pol (fun _ => none) d b).1 = .ok () := by
  have hf : ∀ b : BufFile, (flushBuf (fun _ => none) b).1 = .ok () := by
    intro b; unfold flushBuf; split <;> rfl
  unfold bufPut
  have : (if b.buf.length + d.length > pol.cap ∨ pol.cap ≤ d.length ∨ pol.early b d then flushBuf (fun _ => none) b
      else (.ok (), b)).1 = .ok () := by
    split
    · exact hf b
    · rfl
  split
  · split <;> rfl
  · next x h =>
    rw [h] at this
    rename_i r b1
    simp only at this
    exact this

theorem bufSeek_ok (off : Nat) (b : BufFile) : ∃ b', bufSeek (fun _ => none) off b = (.ok (), b') := by
  unfold bufSeek flushBuf
  split
  · next h => exact ⟨_, rfl⟩
  · next h e =>
    exfalso
    split at e
    · cases e; exact h rfl
    · cases e; exact h rfl

theorem bufChunks_ok (pol : BufPolicy) : ∀ (cs : List Bytes) (b : BufFile),
    ∃ b', bufChunks pol (fun _ => none) cs b = (.ok (), b') := by
  intro cs
  induction cs with
  | nil => intro b; exact ⟨b, rfl⟩
  | cons c cs ih =>
    intro b
    have := bufPut_ok pol c b
    simp only [bufChunks]
    rcases hp : bufPut pol (fun _ => none) c b with ⟨r, b1⟩
    rw [hp] at this
    simp only at this
    subst this
    exact ih b1

theorem bufEnv_faultless (fs : SourceFs) (pol : BufPolicy) : Faultless fs (bufEnv fs pol (fun _ => none)) := by
  refine ⟨rfl, rfl, ?_, ?_, fun s => ⟨_, rfl⟩⟩
  · intro off d s
    show (bufWrite pol (fun _ => none) off d s).1 = _
    unfold bufWrite
    obtain ⟨b', e⟩ := bufSeek_ok off s
    rw [e]
    exact bufPut_ok pol d b'
  · intro p i o n s
    simp only [bufEnv]
    obtain ⟨b', e⟩ := bufSeek_ok o s
    obtain ⟨b'', e'⟩ := bufChunks_ok pol (fs.copy p i n).1 b'
    rw [e]
    simp only [e']

theorem fileEnv_faultless (fs : SourceFs) : Faultless fs (fileEnv fs (fun _ => none)) := by
  refine ⟨rfl, rfl, fun _ _ _ => rfl, ?_, fun s => ⟨_, rfl⟩⟩
  intro p i o n s
  simp only [fileEnv]
  have : ∀ (cs : List Bytes) (off : Nat) (f : ImgFile), (writeChunks (fun _ => none) off cs f).1 = .ok () := by
    intro cs
    induction cs with
    | nil => intro off f; rfl
    | cons c cs ih => intro off f; exact ih _ _
  have := this (fs.copy p i n).1 o s
  rcases hw : writeChunks (fun _ => none) o (fs.copy p i n).1 s with ⟨r, f⟩
  rw [hw] at this
  simp only at this
  subst this
  rfl

end Xdvdfs
