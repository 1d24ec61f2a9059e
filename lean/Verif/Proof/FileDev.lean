import Verif.Proof.Plan
import Verif.Spec.Pack

/-!
# Output files
-/

namespace Xdvdfs

open Spec

/-- The image after a sequence of writes. -/
def applyTrace (img : Bytes) (W : List (Nat × Bytes)) : Bytes :=
  W.foldl (fun im x => writeAt im x.1 x.2) img

theorem applyTrace_append (img : Bytes) (A B : List (Nat × Bytes)) :
    applyTrace img (A ++ B) = applyTrace (applyTrace img A) B := List.foldl_append

theorem writeAt_get (img : Bytes) (off : Nat) (d : Bytes) (i : Nat) :
    (writeAt img off d)[i]? =
      if d = [] then img[i]?
      else if i < off then (if i < img.length then img[i]? else some 0)
      else if i < off + d.length then d[i - off]?
      else img[i]? := by
  unfold writeAt
  split
  · rfl
  · next hd =>
    have hpos : 0 < d.length := List.length_pos_iff.2 hd
    by_cases h1 : i < off
    · rw [if_pos h1]
      by_cases h2 : i < img.length
      · rw [if_pos h2, List.getElem?_append_left (by simp; omega), List.getElem?_take, if_pos h1]
      · rw [if_neg h2, List.getElem?_append_right (by simp; omega),
          List.getElem?_append_left (by simp; omega), List.getElem?_replicate, if_pos (by simp; omega)]
    · rw [if_neg h1]
      rw [List.getElem?_append_right (by simp; omega), List.getElem?_append_right (by simp; omega)]
      simp only [List.length_take, List.length_replicate]
      have e : i - min off img.length - (off - img.length) = i - off := by omega
      rw [e]
      by_cases h2 : i < off + d.length
      · rw [if_pos h2, List.getElem?_append_left (by omega)]
      · rw [if_neg h2, List.getElem?_append_right (by omega), List.getElem?_drop]
        congr 1; omega

theorem writeAt_length (img : Bytes) (off : Nat) (d : Bytes) :
    (writeAt img off d).length = if d = [] then img.length else max img.length (off + d.length) := by
  unfold writeAt
  split
  · rfl
  · simp only [List.length_append, List.length_take, List.length_replicate, List.length_drop]
    omega

/-- The bytes `d` are in the image at `off`. -/
def At (img : Bytes) (off : Nat) (d : Bytes) : Prop := ∀ i, i < d.length → img[off + i]? = d[i]?

theorem At.holds {img : Bytes} {off : Nat} {d : Bytes} (h : At img off d) :
    HoldsAt (fileDev img) off d := by
  intro o n hn
  show fileRead img (off + o) n = _
  unfold fileRead
  by_cases h0 : n = 0
  · subst h0; simp [slice]
  · rw [if_neg h0]
    have hlen : off + o + n ≤ img.length := by
      have := h (o + n - 1) (by omega)
      rw [List.getElem?_eq_getElem (show o + n - 1 < d.length by omega)] at this
      have := (List.getElem?_eq_some_iff.1 this).1
      omega
    rw [if_pos hlen]
    congr 1
    apply List.ext_getElem?
    intro i
    simp only [slice, List.getElem?_take, List.getElem?_drop]
    split
    · have := h (o + i) (by omega)
      rw [← this]; congr 1; omega
    · rfl

/-- Disjoint byte ranges. -/
def DisjW (a b : Nat × Bytes) : Prop := a.1 + a.2.length ≤ b.1 ∨ b.1 + b.2.length ≤ a.1

theorem DisjW.symm {a b : Nat × Bytes} (h : DisjW a b) : DisjW b a := Or.symm h

theorem At.write_same (img : Bytes) (off : Nat) (d : Bytes) : At (writeAt img off d) off d := by
  intro i hi
  have hd : d ≠ [] := by intro h; subst h; simp at hi
  rw [writeAt_get, if_neg hd, if_neg (by omega), if_pos (by omega)]
  congr 1; omega

theorem At.write_disj {img : Bytes} {off off' : Nat} {d d' : Bytes} (h : At img off d)
    (hd : DisjW (off, d) (off', d')) : At (writeAt img off' d') off d := by
  intro i hi
  rw [writeAt_get]
  have h1 := h i hi
  rw [List.getElem?_eq_getElem hi] at h1 ⊢
  have hlt := (List.getElem?_eq_some_iff.1 h1).1
  split
  · exact h1
  · split
    · first | exact h1 | (rw [if_pos hlt]; exact h1)
    · split
      · simp only [DisjW] at hd; omega
      · exact h1

theorem At.trace {img : Bytes} {off : Nat} {d : Bytes} (h : At img off d) :
    ∀ {W : List (Nat × Bytes)}, (∀ x ∈ W, DisjW (off, d) x) → At (applyTrace img W) off d := by
  intro W
  induction W generalizing img with
  | nil => intro _; exact h
  | cons x W ih =>
    intro hW
    exact ih (h.write_disj (hW x (by simp))) (fun y hy => hW y (by simp [hy]))

/-- Disjoint writes all persist. -/
theorem applyTrace_at {img : Bytes} : ∀ {W : List (Nat × Bytes)}, W.Pairwise DisjW →
    ∀ x ∈ W, At (applyTrace img W) x.1 x.2 := by
  intro W
  induction W generalizing img with
  | nil => simp
  | cons y W ih =>
    intro h x hx
    have h' := List.pairwise_cons.1 h
    rcases List.mem_cons.1 hx with rfl | hx
    · exact (At.write_same _ _ _).trace (fun z hz => h'.1 z hz)
    · exact ih h'.2 x hx

/-- Bytes below `B` are absent or zero. -/
def LowZero (img : Bytes) (B : Nat) : Prop := ∀ i b, i < B → img[i]? = some b → b = 0

theorem LowZero.nil (B : Nat) : LowZero [] B := by intro i b _ h; simp at h

theorem LowZero.write {img : Bytes} {B off : Nat} {d : Bytes} (h : LowZero img B) (ho : B ≤ off) :
    LowZero (writeAt img off d) B := by
  intro i b hi hb
  rw [writeAt_get] at hb
  split at hb
  · exact h i b hi hb
  · rw [if_pos (by omega)] at hb
    split at hb
    · exact h i b hi hb
    · exact (Option.some.inj hb).symm

theorem LowZero.trace {B : Nat} : ∀ {W : List (Nat × Bytes)} {img : Bytes}, LowZero img B →
    (∀ x ∈ W, B ≤ x.1) → LowZero (applyTrace img W) B := by
  intro W
  induction W with
  | nil => intro img h _; exact h
  | cons x W ih =>
    intro img h hW
    exact ih (h.write (hW x (by simp))) (fun y hy => hW y (by simp [hy]))

/-! ## Chunks -/

/-- Chunks written one after the other. -/
def chunksAt : Nat → List Bytes → List (Nat × Bytes)
  | _, [] => []
  | off, c :: cs => (off, c) :: chunksAt (off + c.length) cs

theorem chunksAt_range : ∀ {cs : List Bytes} {off : Nat} {x : Nat × Bytes}, x ∈ chunksAt off cs →
    off ≤ x.1 ∧ x.1 + x.2.length ≤ off + cs.flatten.length := by
  intro cs
  induction cs with
  | nil => intro off x h; simp [chunksAt] at h
  | cons c cs ih =>
    intro off x h
    simp only [chunksAt, List.mem_cons] at h
    simp only [List.flatten_cons, List.length_append]
    rcases h with rfl | h
    · simp only; omega
    · have := ih h; omega

theorem chunksAt_disj : ∀ {cs : List Bytes} {off : Nat}, (chunksAt off cs).Pairwise DisjW := by
  intro cs
  induction cs with
  | nil => intro off; exact .nil
  | cons c cs ih =>
    intro off
    refine List.pairwise_cons.2 ⟨?_, ih⟩
    intro x hx
    exact .inl (chunksAt_range hx).1

theorem At.chunks {img : Bytes} : ∀ {cs : List Bytes} {off : Nat},
    (∀ x ∈ chunksAt off cs, At img x.1 x.2) → At img off cs.flatten := by
  intro cs
  induction cs with
  | nil => intro off _ i hi; simp at hi
  | cons c cs ih =>
    intro off h i hi
    simp only [chunksAt, List.mem_cons] at h
    have h1 := h (off, c) (.inl rfl)
    have h2 := ih (fun x hx => h x (.inr hx))
    simp only [List.flatten_cons, List.length_append] at hi ⊢
    by_cases hc : i < c.length
    · rw [List.getElem?_append_left hc]; exact h1 i hc
    · rw [List.getElem?_append_right (by omega), ← h2 (i - c.length) (by omega)]
      congr 1; omega

/-! ## Running operations on a file -/

/-- The writes of an operation. -/
def opWrites (fs : SourceFs) : Op → List (Nat × Bytes)
  | .report _ => []
  | .write off d => [(off, d)]
  | .copy p o n => chunksAt o (fs.copy p 0 n).1

/-- The reports of an operation. -/
def opReports : Op → List Progress
  | .report p => [p]
  | _ => []

/-- The source delivered what the operation needs. -/
def OpOK (fs : SourceFs) : Op → Prop
  | .copy p _ n => ∃ k, (fs.copy p 0 n).2 = .ok k
  | _ => True

/-- `W'` is a prefix of `W`, possibly with the last write cut short. -/
def Torn (W' W : List (Nat × Bytes)) : Prop :=
  (∃ rest, W = W' ++ rest) ∨
  (∃ pre off d m rest, W = pre ++ (off, d) :: rest ∧ W' = pre ++ [(off, d.take m)])

theorem Torn.refl (W : List (Nat × Bytes)) : Torn W W := .inl ⟨[], by simp⟩

theorem Torn.append_right {W' W : List (Nat × Bytes)} (h : Torn W' W) (X : List (Nat × Bytes)) :
    Torn W' (W ++ X) := by
  rcases h with ⟨rest, rfl⟩ | ⟨pre, off, d, m, rest, rfl, rfl⟩
  · exact .inl ⟨rest ++ X, by simp⟩
  · exact .inr ⟨pre, off, d, m, rest ++ X, by simp, rfl⟩

theorem Torn.append_left {W' W : List (Nat × Bytes)} (h : Torn W' W) (X : List (Nat × Bytes)) :
    Torn (X ++ W') (X ++ W) := by
  rcases h with ⟨rest, rfl⟩ | ⟨pre, off, d, m, rest, rfl, rfl⟩
  · exact .inl ⟨rest, by simp⟩
  · exact .inr ⟨X ++ pre, off, d, m, rest, by simp, by simp⟩

theorem fileWrite_spec (faults : Faults) (off : Nat) (d : Bytes) (f : ImgFile) :
    ∃ W', (fileWrite faults off d f).2.trace = f.trace ++ W' ∧
      (fileWrite faults off d f).2.img = applyTrace f.img W' ∧ Torn W' [(off, d)] ∧
      ((fileWrite faults off d f).1 = .ok () → W' = [(off, d)]) ∧
      ((fileWrite faults off d f).1 = .ok () ∨ (fileWrite faults off d f).1 = .err .io) := by
  unfold fileWrite
  split
  · exact ⟨[(off, d)], rfl, rfl, .refl _, fun _ => rfl, .inl rfl⟩
  · next m _ =>
    refine ⟨[(off, d.take m)], rfl, rfl, .inr ⟨[], off, d, m, [], rfl, rfl⟩, ?_, .inr rfl⟩
    intro h; cases h

theorem writeChunks_spec (faults : Faults) : ∀ (cs : List Bytes) (off : Nat) (f : ImgFile),
    ∃ W', (writeChunks faults off cs f).2.trace = f.trace ++ W' ∧
      (writeChunks faults off cs f).2.img = applyTrace f.img W' ∧ Torn W' (chunksAt off cs) ∧
      ((writeChunks faults off cs f).1 = .ok () → W' = chunksAt off cs) ∧
      ((writeChunks faults off cs f).1 = .ok () ∨ (writeChunks faults off cs f).1 = .err .io) := by
  intro cs
  induction cs with
  | nil =>
    intro off f
    exact ⟨[], by simp [writeChunks], rfl, .refl _, fun _ => rfl, .inl rfl⟩
  | cons c cs ih =>
    intro off f
    obtain ⟨W1, h1, h2, h3, h4, h5⟩ := fileWrite_spec faults off c f
    simp only [writeChunks]
    rcases hw : fileWrite faults off c f with ⟨r, f1⟩
    rw [hw] at h1 h2 h4 h5
    rcases h5 with h5 | h5
    · simp only at h5
      subst h5
      obtain ⟨W2, k1, k2, k3, k4, k5⟩ := ih (off + c.length) f1
      have hW1 := h4 rfl
      subst hW1
      refine ⟨(off, c) :: W2, ?_, ?_, ?_, ?_, k5⟩
      · simp only [k1]; simp only at h1; rw [h1]; simp
      · simp only [k2]; simp only at h2; rw [h2]; rfl
      · exact k3.append_left [(off, c)]
      · intro h; rw [k4 h]; rfl
    · simp only at h5
      subst h5
      refine ⟨W1, h1, h2, h3.append_right (chunksAt (off + c.length) cs), ?_, .inr rfl⟩
      intro h; cases h

theorem op_spec (fs : SourceFs) (faults : Faults) (o : Op) (s : PackState ImgFile) :
    ∃ W', (o.run (fileEnv fs faults) s).2.dev.trace = s.dev.trace ++ W' ∧
      (o.run (fileEnv fs faults) s).2.dev.img = applyTrace s.dev.img W' ∧ Torn W' (opWrites fs o) ∧
      ((o.run (fileEnv fs faults) s).1 = .ok () → W' = opWrites fs o ∧ OpOK fs o) ∧
      (o.run (fileEnv fs faults) s).2.log = s.log ++ opReports o := by
  cases o with
  | report p => exact ⟨[], by simp [Op.run, PM.report], rfl, .refl _, fun _ => ⟨rfl, trivial⟩, rfl⟩
  | write off d =>
    obtain ⟨W', h1, h2, h3, h4, h5⟩ := fileWrite_spec faults off d s.dev
    exact ⟨W', h1, h2, h3, fun h => ⟨h4 h, trivial⟩, by simp [Op.run, PM.onDev, opReports]⟩
  | copy p out n =>
    obtain ⟨W', h1, h2, h3, h4, h5⟩ := writeChunks_spec faults (fs.copy p 0 n).1 out s.dev
    simp only [Op.run, PM.bind_def, PM.onDev, fileEnv, PM.pure_def]
    rcases hw : writeChunks faults out (fs.copy p 0 n).1 s.dev with ⟨r, f1⟩
    rw [hw] at h1 h2 h4 h5
    simp only at h5 h1 h2 h4
    rcases h5 with h5 | h5
    · subst h5
      simp only
      cases hc : (fs.copy p 0 n).2 with
      | ok k => exact ⟨W', h1, h2, h3, fun _ => ⟨h4 rfl, k, hc⟩, by simp [opReports]⟩
      | err e => exact ⟨W', h1, h2, h3, fun h => (by cases h), by simp [opReports]⟩
      | panic => exact ⟨W', h1, h2, h3, fun h => (by cases h), by simp [opReports]⟩
      | hang => exact ⟨W', h1, h2, h3, fun h => (by cases h), by simp [opReports]⟩
    · subst h5
      exact ⟨W', h1, h2, h3, fun h => (by cases h), by simp [opReports]⟩

/-- The writes of a run of operations that stops in the middle of one operation, or after the last
one; all operations before that one succeeded. -/
inductive TornOps (fs : SourceFs) : List (Nat × Bytes) → List Op → Prop
  | done : TornOps fs [] []
  | here {T o ops} : Torn T (opWrites fs o) → TornOps fs T (o :: ops)
  | next {T o ops} : OpOK fs o → TornOps fs T ops → TornOps fs (opWrites fs o ++ T) (o :: ops)

theorem TornOps.torn {fs : SourceFs} {W : List (Nat × Bytes)} {ops : List Op} (h : TornOps fs W ops) :
    Torn W (ops.flatMap (opWrites fs)) := by
  induction h with
  | done => exact .refl _
  | here h => exact h.append_right _
  | next _ _ ih => exact ih.append_left _

theorem TornOps.snoc {fs : SourceFs} {o : Op} : ∀ {ops : List Op} {W : List (Nat × Bytes)},
    TornOps fs W (ops ++ [o]) →
    Torn W (ops.flatMap (opWrites fs)) ∨
    ((∀ o' ∈ ops, OpOK fs o') ∧ ∃ T, W = ops.flatMap (opWrites fs) ++ T ∧ Torn T (opWrites fs o)) := by
  intro ops
  induction ops with
  | nil =>
    intro W h
    right
    cases h with
    | here h => exact ⟨by simp, W, by simp, h⟩
    | @next T _ _ _ h2 => cases h2; exact ⟨by simp, opWrites fs o, by simp, .refl _⟩
  | cons a ops ih =>
    intro W h
    cases h with
    | here h => exact .inl (h.append_right _)
    | @next T _ _ h1 h2 =>
      rcases ih h2 with h | ⟨k1, T', rfl, k3⟩
      · exact .inl (h.append_left _)
      · right
        refine ⟨?_, T', by simp, k3⟩
        intro o' ho'
        rcases List.mem_cons.1 ho' with rfl | ho'
        · exact h1
        · exact k1 o' ho'

theorem runOps_spec (fs : SourceFs) (faults : Faults) : ∀ (ops : List Op) (s : PackState ImgFile),
    ∃ W', (runOps (fileEnv fs faults) ops s).2.dev.trace = s.dev.trace ++ W' ∧
      (runOps (fileEnv fs faults) ops s).2.dev.img = applyTrace s.dev.img W' ∧
      TornOps fs W' ops ∧
      ((runOps (fileEnv fs faults) ops s).1 = .ok () → W' = ops.flatMap (opWrites fs) ∧
        (∀ o ∈ ops, OpOK fs o) ∧
        (runOps (fileEnv fs faults) ops s).2.log = s.log ++ ops.flatMap opReports) := by
  intro ops
  induction ops with
  | nil =>
    intro s
    exact ⟨[], by simp [runOps, PM.pure_def], rfl, .done, fun _ => ⟨rfl, by simp, by simp [runOps, PM.pure_def]⟩⟩
  | cons o ops ih =>
    intro s
    obtain ⟨W1, h1, h2, h3, h4, h5⟩ := op_spec fs faults o s
    simp only [runOps, PM.bind_def, List.flatMap_cons]
    rcases hw : o.run (fileEnv fs faults) s with ⟨r, s1⟩
    rw [hw] at h1 h2 h4 h5
    simp only at h1 h2 h4 h5
    have hfail : ∀ {e : Res Unit}, e ≠ .ok () → ∃ W', s1.dev.trace = s.dev.trace ++ W' ∧
        s1.dev.img = applyTrace s.dev.img W' ∧
        TornOps fs W' (o :: ops) ∧
        (e = .ok () → W' = opWrites fs o ++ ops.flatMap (opWrites fs) ∧ (∀ o' ∈ o :: ops, OpOK fs o') ∧
          s1.log = s.log ++ (opReports o ++ ops.flatMap opReports)) :=
      fun he => ⟨W1, h1, h2, TornOps.here h3, fun h => absurd h he⟩
    cases r with
    | ok u =>
      obtain ⟨W2, k1, k2, k3, k4⟩ := ih s1
      obtain ⟨e1, e2⟩ := h4 rfl
      refine ⟨W1 ++ W2, ?_, ?_, ?_, ?_⟩
      · rw [k1, h1, List.append_assoc]
      · rw [k2, h2, applyTrace_append]
      · rw [e1]; exact .next e2 k3
      · intro h
        obtain ⟨m1, m2, m3⟩ := k4 h
        refine ⟨by rw [e1, m1], ?_, by rw [m3, h5, List.append_assoc]⟩
        intro o' ho'
        rcases List.mem_cons.1 ho' with rfl | ho'
        · exact e2
        · exact m2 o' ho'
    | err e => exact hfail (by simp)
    | panic => exact hfail (by simp)
    | hang => exact hfail (by simp)

/-- The padding written at the end. -/
def padOf (img : Bytes) : List (Nat × Bytes) :=
  if img.length % (32 * 2048) > 0 then
    [(img.length, List.replicate (32 * 2048 - img.length % (32 * 2048)) 0)] else []

theorem padImage_spec (fs : SourceFs) (faults : Faults) (s : PackState ImgFile) :
    ∃ W', (padImage (fileEnv fs faults) s).2.dev.trace = s.dev.trace ++ W' ∧
      (padImage (fileEnv fs faults) s).2.dev.img = applyTrace s.dev.img W' ∧
      Torn W' (padOf s.dev.img) ∧ (padImage (fileEnv fs faults) s).2.log = s.log ∧
      ((padImage (fileEnv fs faults) s).1 = .ok () → W' = padOf s.dev.img) := by
  unfold padImage padOf
  simp only [PM.bind_def, fileEnv, devLen]
  split
  · obtain ⟨W', h1, h2, h3, h4, h5⟩ := fileWrite_spec faults s.dev.img.length
      (List.replicate (32 * 2048 - s.dev.img.length % (32 * 2048)) 0) s.dev
    exact ⟨W', h1, h2, h3, rfl, h4⟩
  · exact ⟨[], by simp [PM.pure_def], rfl, .refl _, rfl, fun _ => rfl⟩

/-- Image creation on a file, as a trace of writes. -/
theorem createImage_trace (fs : SourceFs) (faults : Faults) (fuel : Nat) (img0 : Bytes)
    {res : Res Unit} {s' : PackState ImgFile}
    (h : createImage (fileEnv fs faults) fuel ⟨⟨img0, []⟩, []⟩ = (res, s')) :
    s'.dev.img = applyTrace img0 s'.dev.trace ∧
    ((res ≠ .ok () ∧ TornOps fs s'.dev.trace (createP fs.readDir fs.pathToString fuel).ops) ∨
     ((createP fs.readDir fs.pathToString fuel).res = .ok () ∧
      (∀ o ∈ (createP fs.readDir fs.pathToString fuel).ops, OpOK fs o) ∧
      ∃ P, s'.dev.trace = (createP fs.readDir fs.pathToString fuel).ops.flatMap (opWrites fs) ++ P ∧
        Torn P (padOf (applyTrace img0 ((createP fs.readDir fs.pathToString fuel).ops.flatMap (opWrites fs)))) ∧
        (res = .ok () →
          P = padOf (applyTrace img0 ((createP fs.readDir fs.pathToString fuel).ops.flatMap (opWrites fs))) ∧
          s'.log = (createP fs.readDir fs.pathToString fuel).ops.flatMap opReports ++ [.finishedPacking]))) := by
  rw [createImage_eq] at h
  change ((createP fs.readDir fs.pathToString fuel).run (fileEnv fs faults) >>= fun _ =>
    padImage (fileEnv fs faults) >>= fun _ => PM.report .finishedPacking) _ = _ at h
  generalize createP fs.readDir fs.pathToString fuel = P at h ⊢
  obtain ⟨W1, h1, h2, h3, h4⟩ := runOps_spec fs faults P.ops ⟨⟨img0, []⟩, []⟩
  simp only [PM.bind_def, Pl.run] at h
  rcases hr : runOps (fileEnv fs faults) P.ops ⟨⟨img0, []⟩, []⟩ with ⟨r, s1⟩
  rw [hr] at h h1 h2 h4
  simp only [List.nil_append] at h1 h2 h4
  have hfail : ∀ {e : Res Unit}, e ≠ .ok () → (e, s1) = (res, s') → s'.dev.img = applyTrace img0 s'.dev.trace ∧
      res ≠ .ok () ∧ TornOps fs s'.dev.trace P.ops := by
    intro e he h
    simp only [Prod.mk.injEq] at h
    obtain ⟨rfl, rfl⟩ := h
    exact ⟨by rw [h1, h2], he, by rw [h1]; exact h3⟩
  cases r with
  | err e => exact ⟨(hfail (by simp) h).1, .inl (hfail (by simp) h).2⟩
  | panic => exact ⟨(hfail (by simp) h).1, .inl (hfail (by simp) h).2⟩
  | hang => exact ⟨(hfail (by simp) h).1, .inl (hfail (by simp) h).2⟩
  | ok u =>
    simp only [PM.lift] at h
    cases hp : P.res with
    | err e => rw [hp] at h; exact ⟨(hfail (by simp) h).1, .inl (hfail (by simp) h).2⟩
    | panic => rw [hp] at h; exact ⟨(hfail (by simp) h).1, .inl (hfail (by simp) h).2⟩
    | hang => rw [hp] at h; exact ⟨(hfail (by simp) h).1, .inl (hfail (by simp) h).2⟩
    | ok u =>
      rw [hp] at h
      simp only at h
      obtain ⟨e1, e2, e3⟩ := h4 rfl
      obtain ⟨W2, k1, k2, k3, k4, k5⟩ := padImage_spec fs faults s1
      rcases hq : padImage (fileEnv fs faults) s1 with ⟨r2, s2⟩
      rw [hq] at h k1 k2 k4 k5
      simp only at h k1 k2 k4 k5
      have himg : s1.dev.img = applyTrace img0 (P.ops.flatMap (opWrites fs)) := by rw [h2, e1]
      have hend : ∀ {s3 : PackState ImgFile} {r3 : Res Unit}, s3.dev = s2.dev → (r3, s3) = (res, s') →
          (r3 = .ok () → r2 = .ok () ∧ s3.log = s2.log ++ [.finishedPacking]) →
          s'.dev.img = applyTrace img0 s'.dev.trace ∧ (∀ o ∈ P.ops, OpOK fs o) ∧
          ∃ Q, s'.dev.trace = P.ops.flatMap (opWrites fs) ++ Q ∧
            Torn Q (padOf (applyTrace img0 (P.ops.flatMap (opWrites fs)))) ∧
            (res = .ok () → Q = padOf (applyTrace img0 (P.ops.flatMap (opWrites fs))) ∧
              s'.log = P.ops.flatMap opReports ++ [.finishedPacking]) := by
        intro s3 r3 hd h hok
        simp only [Prod.mk.injEq] at h
        obtain ⟨rfl, rfl⟩ := h
        refine ⟨?_, e2, W2, ?_, ?_, ?_⟩
        · rw [hd, k2, k1, h2, h1, applyTrace_append]
        · rw [hd, k1, h1, e1]
        · rw [himg] at k3; exact k3
        · intro hr
          obtain ⟨m1, m2⟩ := hok hr
          refine ⟨by rw [k5 m1, himg], ?_⟩
          rw [m2, k4, e3]
      cases r2 with
      | ok u =>
        have hh := hend (s3 := { s2 with log := s2.log ++ [.finishedPacking] }) (r3 := .ok ()) rfl h
          (fun _ => ⟨rfl, rfl⟩)
        exact ⟨hh.1, .inr ⟨rfl, hh.2⟩⟩
      | err e => exact ⟨(hend (s3 := s2) rfl h (fun hc => (by cases hc))).1, .inr ⟨rfl, (hend (s3 := s2) rfl h (fun hc => (by cases hc))).2⟩⟩
      | panic => exact ⟨(hend (s3 := s2) rfl h (fun hc => (by cases hc))).1, .inr ⟨rfl, (hend (s3 := s2) rfl h (fun hc => (by cases hc))).2⟩⟩
      | hang => exact ⟨(hend (s3 := s2) rfl h (fun hc => (by cases hc))).1, .inr ⟨rfl, (hend (s3 := s2) rfl h (fun hc => (by cases hc))).2⟩⟩

end Xdvdfs
