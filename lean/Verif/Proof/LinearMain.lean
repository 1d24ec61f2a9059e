import Verif.Proof.SectorLinear

/-!
# The sector map holds the image
-/

namespace Xdvdfs

open Spec Props

theorem applyTrace_zero {i : Nat} : ∀ {W : List (Nat × Bytes)} {img : Bytes},
    (∀ w ∈ W, w.1 ≤ i → i < w.1 + w.2.length → w.2[i - w.1]? = some 0) →
    (img[i]? = none ∨ img[i]? = some 0) →
    (applyTrace img W)[i]? = none ∨ (applyTrace img W)[i]? = some 0 := by
  intro W
  induction W with
  | nil => intro img _ h; exact h
  | cons w W ih =>
    intro img hW h
    refine ih (img := writeAt img w.1 w.2) (fun v hv => hW v (List.mem_cons_of_mem _ hv)) ?_
    rw [writeAt_get]
    split
    · exact h
    · split
      · split
        · exact h
        · exact .inr rfl
      · split
        · exact .inr (hW w List.mem_cons_self (by omega) (by omega))
        · exact h

theorem applyTrace_length_le {B : Nat} : ∀ {W : List (Nat × Bytes)} {img : Bytes}, img.length ≤ B →
    (∀ w ∈ W, w.2 ≠ [] → w.1 + w.2.length ≤ B) → (applyTrace img W).length ≤ B := by
  intro W
  induction W with
  | nil => intro img h _; exact h
  | cons w W ih =>
    intro img h hW
    refine ih (img := writeAt img w.1 w.2) ?_ (fun v hv => hW v (List.mem_cons_of_mem _ hv))
    rw [writeAt_length]
    split
    · exact h
    · next hne => have := hW w List.mem_cons_self hne; omega

/-- The bytes an operation stores, and where. -/
def OpData (fs : SourceFs) : Op → Nat → Bytes → Prop
  | .report _, _, _ => False
  | .write off d, o, b => o = off ∧ b = d
  | .copy p out n, o, b => o = out ∧ b = (fs.copy p 0 n).1.flatten ∧ b.length = n

theorem OpData.writes_in {fs : SourceFs} {o : Op} {off : Nat} {d : Bytes} (h : OpData fs o off d) :
    ∀ w ∈ opWrites fs o, off ≤ w.1 ∧ w.1 + w.2.length ≤ off + d.length := by
  intro w hw
  cases o with
  | report => exact absurd h id
  | write => obtain ⟨rfl, rfl⟩ := h; simp only [opWrites, List.mem_singleton] at hw; subst hw; simp
  | copy p out n =>
    obtain ⟨rfl, rfl, _⟩ := h
    exact chunksAt_range hw

theorem OpData.block {fs : SourceFs} {o : Op} {off : Nat} {d : Bytes} (h : OpData fs o off d) (k : Nat) :
    (∃ b, OpBlock o k b) ↔ ∃ i, 2048 * i < d.length ∧ k = off / 2048 + i := by
  cases o with
  | report => exact absurd h id
  | write => 
    obtain ⟨rfl, rfl⟩ := h
    exact ⟨fun ⟨b, i, h1, h2, h3⟩ => ⟨i, h1, h2⟩, fun ⟨i, h1, h2⟩ => ⟨_, i, h1, h2, rfl⟩⟩
  | copy p out n =>
    obtain ⟨rfl, _, hl⟩ := h
    rw [hl]
    exact ⟨fun ⟨b, i, h1, h2, h3⟩ => ⟨i, h1, h2⟩, fun ⟨i, h1, h2⟩ => ⟨_, i, h1, h2, rfl⟩⟩

theorem OpData.aligned {fs : SourceFs} {o : Op} {off : Nat} {d : Bytes} (h : OpData fs o off d)
    (ha : OpAligned o) : off % 2048 = 0 := by
  cases o with
  | report => exact absurd h id
  | write => obtain ⟨rfl, _⟩ := h; exact ha
  | copy p out n => obtain ⟨rfl, _⟩ := h; exact ha

theorem OpData.at {fs : SourceFs} {o : Op} {off : Nat} {d : Bytes} (h : OpData fs o off d) {img : Bytes}
    (hw : ∀ w ∈ opWrites fs o, At img w.1 w.2) : At img off d := by
  cases o with
  | report => exact absurd h id
  | write => obtain ⟨rfl, rfl⟩ := h; exact hw _ (List.mem_singleton.2 rfl)
  | copy p out n =>
    obtain ⟨rfl, rfl, _⟩ := h
    exact At.chunks hw

/-- A list of operations whose data is known. -/
structure OpsOK (fs : SourceFs) (ops : List Op) : Prop where
  aligned : ∀ o ∈ ops, OpAligned o
  disj : ops.Pairwise OpDisj
  data : ∀ o ∈ ops, o.IsReport ∨ ∃ off d, OpData fs o off d

/-- A byte touched by a write of an operation lies in a sector of the operation. -/
theorem write_sector {fs : SourceFs} {o : Op} {off : Nat} {d : Bytes} (h : OpData fs o off d)
    (ha : OpAligned o) {w : Nat × Bytes} (hw : w ∈ opWrites fs o) {x : Nat} (h1 : w.1 ≤ x)
    (h2 : x < w.1 + w.2.length) : ∃ b, OpBlock o (x / 2048) b := by
  have h3 := h.writes_in w hw
  have h4 := h.aligned ha
  rw [h.block]
  exact ⟨x / 2048 - off / 2048, by omega, by omega⟩

/-- Bytes of sector `k`, when operation `o` stores `d` there. -/
theorem OpsOK.byte {fs : SourceFs} {ops : List Op} (h : OpsOK fs ops) {img : Bytes}
    {P : List (Nat × Bytes)} (himg : img = applyTrace [] (ops.flatMap (opWrites fs) ++ P))
    (hat : ∀ w ∈ ops.flatMap (opWrites fs), At img w.1 w.2)
    (hP : ∀ w ∈ P, ∀ b ∈ w.2, b = 0)
    {o : Op} (ho : o ∈ ops) {off : Nat} {d : Bytes} (hd : OpData fs o off d) {i : Nat}
    (hi : 2048 * i < d.length) {j : Nat} (hj : j < 2048) (hx : off + 2048 * i + j < img.length) :
    img[off + 2048 * i + j]? = (padSector (slice d (2048 * i) 2048))[j]? := by
  have hAt : At img off d := hd.at (fun w hw => hat w (List.mem_flatMap.2 ⟨o, ho, hw⟩))
  have hoff := hd.aligned (h.aligned o ho)
  have hsl : (slice d (2048 * i) 2048).length = min 2048 (d.length - 2048 * i) := by simp [slice]
  by_cases hlt : 2048 * i + j < d.length
  · rw [Nat.add_assoc, hAt _ hlt, padSector, List.getElem?_append_left (by omega)]
    simp only [slice, List.getElem?_take, List.getElem?_drop, hj, if_true]
  · have hz : (applyTrace [] (ops.flatMap (opWrites fs) ++ P))[off + 2048 * i + j]? = none ∨
        (applyTrace [] (ops.flatMap (opWrites fs) ++ P))[off + 2048 * i + j]? = some 0 := by
      apply applyTrace_zero
      · intro w hw h1 h2
        rcases List.mem_append.1 hw with hw | hw
        · exfalso
          obtain ⟨o', ho', hw'⟩ := List.mem_flatMap.1 hw
          rcases h.data o' ho' with hr | ⟨off', d', hd'⟩
          · rw [show opWrites fs o' = [] by cases o' <;> first | rfl | exact absurd hr id] at hw'
            simp at hw'
          · obtain ⟨b', hb'⟩ := write_sector hd' (h.aligned o' ho') hw' h1 h2
            obtain ⟨b, hb⟩ := (hd.block ((off + 2048 * i + j) / 2048)).2 ⟨i, hi, by omega⟩
            have := opDisj_eq h.disj ho ho' hb hb'
            subst this
            have := hd.writes_in w hw'
            omega
        · have hm : off + 2048 * i + j - w.1 < w.2.length := by omega
          rw [List.getElem?_eq_getElem hm, hP w hw _ (List.getElem_mem hm)]
      · left; simp
    rw [← himg] at hz
    have : img[off + 2048 * i + j]? = some 0 := by
      rcases hz with hz | hz
      · rw [List.getElem?_eq_none_iff] at hz; omega
      · exact hz
    rw [this, padSector, List.getElem?_append_right (by omega), List.getElem?_replicate, if_pos (by omega)]

/-- Bytes of a sector no operation touches. -/
theorem OpsOK.gap {fs : SourceFs} {ops : List Op} (h : OpsOK fs ops) {img : Bytes}
    {P : List (Nat × Bytes)} (himg : img = applyTrace [] (ops.flatMap (opWrites fs) ++ P))
    (hP : ∀ w ∈ P, ∀ b ∈ w.2, b = 0) {k : Nat} (hk : ∀ o ∈ ops, ∀ b, ¬ OpBlock o k b)
    {j : Nat} (hj : j < 2048) (hx : 2048 * k + j < img.length) :
    img[2048 * k + j]? = some 0 := by
  have hz : (applyTrace [] (ops.flatMap (opWrites fs) ++ P))[2048 * k + j]? = none ∨
      (applyTrace [] (ops.flatMap (opWrites fs) ++ P))[2048 * k + j]? = some 0 := by
    apply applyTrace_zero
    · intro w hw h1 h2
      rcases List.mem_append.1 hw with hw | hw
      · exfalso
        obtain ⟨o', ho', hw'⟩ := List.mem_flatMap.1 hw
        rcases h.data o' ho' with hr | ⟨off', d', hd'⟩
        · rw [show opWrites fs o' = [] by cases o' <;> first | rfl | exact absurd hr id] at hw'
          simp at hw'
        · obtain ⟨b', hb'⟩ := write_sector hd' (h.aligned o' ho') hw' h1 h2
          rw [show (2048 * k + j) / 2048 = k by omega] at hb'
          exact hk o' ho' b' hb'
      · have hm : 2048 * k + j - w.1 < w.2.length := by omega
        rw [List.getElem?_eq_getElem hm, hP w hw _ (List.getElem_mem hm)]
    · left; simp
  rw [← himg] at hz
  rcases hz with hz | hz
  · rw [List.getElem?_eq_none_iff] at hz; omega
  · exact hz

theorem roundup_eq {L M k off i n : Nat} (hle : L ≤ M) (h2 : M = k * 2048 + 2048) (hk : k = off / 2048 + i)
    (hoff : off % 2048 = 0) (hi : 2048 * i < n) (hend : off + n ≤ L) : M = (L + 2047) / 2048 * 2048 := by
  have h3 : L > 2048 * k := by omega
  have h4 : L ≤ 2048 * (k + 1) := by omega
  have h5 : (L + 2047) / 2048 = k + 1 := by
    rw [Nat.div_eq_iff (by decide)]; omega
  rw [h5, h2, Nat.add_mul]

/-- The length of the map is that of the file, rounded up to sectors. -/
theorem OpsOK.length {fs : SourceFs} {ops : List Op} (h : OpsOK fs ops) {m : SecMap} (hm : LinOK m ops) :
    linLen m = ((applyTrace [] (ops.flatMap (opWrites fs))).length + 2047) / 2048 * 2048 := by
  have hle : (applyTrace [] (ops.flatMap (opWrites fs))).length ≤ linLen m := by
    apply applyTrace_length_le (by simp)
    intro w hw hne
    obtain ⟨o, ho, hw⟩ := List.mem_flatMap.1 hw
    rcases h.data o ho with hr | ⟨off, d, hd⟩
    · rw [show opWrites fs o = [] by cases o <;> first | rfl | exact absurd hr id] at hw
      simp at hw
    · have hpos : 0 < w.2.length := List.length_pos_iff.2 hne
      obtain ⟨b, hb⟩ := write_sector hd (h.aligned o ho) hw (x := w.1 + w.2.length - 1) (by omega) (by omega)
      have := (hm.mem _ _).2 ⟨o, ho, hb⟩
      rcases SecMap.linLen_spec hm.sorted with ⟨rfl, _⟩ | ⟨k, b, _, h2, h3⟩
      · simp at this
      · have := h3 _ this
        simp only at this
        omega
  rcases SecMap.linLen_spec hm.sorted with ⟨rfl, h2⟩ | ⟨k, b, h1, h2, h3⟩
  · omega
  · obtain ⟨o, ho, hb⟩ := (hm.mem k b).1 h1
    rcases h.data o ho with hr | ⟨off, d, hd⟩
    · cases o <;> first | exact absurd hb id | exact absurd hr id
    · obtain ⟨i, hi, hk⟩ := (hd.block k).1 ⟨b, hb⟩
      have hoff := hd.aligned (h.aligned o ho)
      have hend : off + d.length ≤ (applyTrace [] (ops.flatMap (opWrites fs))).length := by
        cases o with
        | report => exact absurd hd id
        | write off' d' =>
          obtain ⟨rfl, rfl⟩ := hd
          exact (applyTrace_length (img := [])).2 (off, d) (List.mem_flatMap.2 ⟨_, ho, by simp [opWrites]⟩)
            (by intro he; subst he; simp at hi)
        | copy p out n =>
          obtain ⟨rfl, rfl, _⟩ := hd
          have hall : ∀ w ∈ chunksAt off (fs.copy p 0 n).1, w.2 ≠ [] →
              w.1 + w.2.length ≤ (applyTrace [] (ops.flatMap (opWrites fs))).length :=
            fun w hw hne => (applyTrace_length (img := [])).2 w (List.mem_flatMap.2 ⟨_, ho, hw⟩) hne
          have gen : ∀ (cs : List Bytes) (a B : Nat), (∀ w ∈ chunksAt a cs, w.2 ≠ [] → w.1 + w.2.length ≤ B) →
              0 < cs.flatten.length → a + cs.flatten.length ≤ B := by
            intro cs
            induction cs with
            | nil => intro a B _ h; simp at h
            | cons c cs ih =>
              intro a B h1 h2
              simp only [List.flatten_cons, List.length_append] at h2 ⊢
              by_cases hz : cs.flatten.length = 0
              · have := h1 (a, c) (by simp [chunksAt]) (by intro he; subst he; simp at h2; simp at hz; omega)
                simp only at this
                omega
              · have := ih (a + c.length) B (fun w hw => h1 w (by simp [chunksAt, hw])) (by omega)
                omega
          exact gen _ _ _ hall (by omega)
      exact roundup_eq hle h2 hk hoff hi hend

/-! ## The plan's operations -/

theorem PlanShape.copy_entry {rd : ReadDir} {pts : Path → Str} {D M rootW rootSize next recs n' rest}
    (h : PlanShape rd pts D M rootW rootSize next recs n' rest) {p : Path} {out n : Nat}
    (ho : Op.copy p out n ∈ planOps pts D recs) :
    ∃ q e, EntryIn rd q e ∧ e.isDir = false ∧ p = q ++ [e.name] ∧ n = e.len := by
  simp only [planOps, List.mem_append, List.mem_cons, List.not_mem_nil, or_false] at ho
  rcases ho with ho | (ho | ho) | ho
  · simp only [discovered, List.mem_map] at ho
    obtain ⟨_, _, he⟩ := ho; cases he
  · cases ho
  · cases ho
  · obtain ⟨y, hy, ho⟩ := List.mem_flatMap.1 ho
    simp only [opsRec, List.mem_cons] at ho
    rcases ho with ho | ho | ho
    · cases ho
    · cases ho
    · obtain ⟨l, hl, ho⟩ := List.mem_flatMap.1 ho
      unfold opsEntry at ho
      rcases List.mem_cons.1 ho with ho | ho
      · cases ho
      · split at ho
        · simp at ho
        · next hd =>
          simp only [List.mem_singleton] at ho
          cases ho
          obtain ⟨lst, e, g1, g2, g3, g4, g5, _⟩ := h.entry hy hl
          have hd' : l.isDir = false := by simpa using hd
          obtain ⟨s1, s2⟩ := g5 (by rw [g4]; exact hd')
          exact ⟨y.path, e, ⟨h.dirOf hy, lst, g1, g2⟩, by rw [g4]; exact hd', by rw [g3]; rfl, s1⟩

theorem PlanShape.opsOK {fs : SourceFs} {content : Path → Bytes} {D M rootW rootSize next recs n' rest}
    (h : PlanShape fs.readDir fs.pathToString D M rootW rootSize next recs n' rest)
    (hf : FaithfulTo fs content) (hok : ∀ o ∈ planOps fs.pathToString D recs, OpOK fs o) :
    OpsOK fs (planOps fs.pathToString D recs ++ [descOp rootSize]) := by
  refine ⟨?_, h.ops_disjoint, ?_⟩
  · intro o ho
    rcases List.mem_append.1 ho with ho | ho
    · exact planOps_aligned _ _ _ o ho
    · rw [List.mem_singleton] at ho; subst ho; exact descOp_aligned _
  · intro o ho
    cases o with
    | report => exact .inl trivial
    | write off d => exact .inr ⟨off, d, rfl, rfl⟩
    | copy p out n =>
      right
      rcases List.mem_append.1 ho with ho | ho
      · obtain ⟨q, e, h1, h2, rfl, rfl⟩ := h.copy_entry ho
        obtain ⟨k, hk⟩ := hok _ ho
        obtain ⟨f1, f2⟩ := hf q e k h1 h2 hk
        exact ⟨out, _, rfl, rfl, by rw [f1, f2]⟩
      · rw [List.mem_singleton] at ho; cases ho

/-- Padding the map: the same length as padding the file, and zeros. -/
theorem padImage_lin (rd : ReadDir) (pts : Path → Str) {ops : List Op} {m : SecMap} (log : List Progress)
    (hm : LinOK m ops) :
    ∃ m', padImage (linearEnv rd pts) ⟨m, log⟩ = (.ok (), ⟨m', log⟩) ∧
      linLen m' = (linLen m + 65535) / 65536 * 65536 ∧ m'.Sorted ∧
      (∀ x ∈ m, x ∈ m') ∧ ∀ k b, (k, b) ∈ m' → (k, b) ∈ m ∨
        b = .raw (List.replicate 2048 0) ∧ ∀ b', (k, b') ∉ m := by
  have hmul : linLen m % 2048 = 0 := by
    rcases SecMap.linLen_spec hm.sorted with ⟨_, h⟩ | ⟨k, b, _, h, _⟩ <;> omega
  have hbelow : ∀ x ∈ m, x.1 < linLen m / 2048 := by
    rcases SecMap.linLen_spec hm.sorted with ⟨rfl, h⟩ | ⟨k, b, _, h, h3⟩
    · simp
    · intro x hx; have := h3 x hx; omega
  have hrun : ∀ (n : Nat), linLen m = n → padImage (linearEnv rd pts) ⟨m, log⟩ =
      if n % (32 * 2048) > 0 then
        PM.onDev (linWrite n (List.replicate (32 * 2048 - n % (32 * 2048)) 0)) ⟨m, log⟩
      else (.ok (), ⟨m, log⟩) := by
    intro n hn
    subst hn
    simp only [padImage, PM.bind_def, devLen, linearEnv]
    split <;> rfl
  rw [hrun _ rfl]
  split
  · next hr =>
    generalize hn : 32 * 2048 - linLen m % (32 * 2048) = n
    have hn2 : n % 2048 = 0 ∧ 0 < n ∧ linLen m + n = (linLen m + 65535) / 65536 * 65536 := by omega
    obtain ⟨m', e1, e2, e3⟩ := linWriteLoop_spec n (linLen m / 2048) (List.replicate n 0) m
      (by simp) hm.sorted (fun i b _ hmem => by have := hbelow _ hmem; simp only at this; omega)
    have hz : ∀ i, 2048 * i < n → padSector (slice (List.replicate n (0 : UInt8)) (2048 * i) 2048) =
        List.replicate 2048 0 := by
      intro i hi
      simp only [padSector, slice, List.drop_replicate, List.take_replicate, List.length_replicate,
        List.replicate_append_replicate]
      congr 1; omega
    refine ⟨m', ?_, ?_, e2, fun x hx => (e3 x.1 x.2).2 (.inl hx), ?_⟩
    · simp only [PM.onDev, linWrite, hmul, ne_eq, not_true_eq_false, if_false, List.length_replicate, e1]
    · rw [← hn2.2.2]
      rcases SecMap.linLen_spec e2 with ⟨rfl, _⟩ | ⟨k, b, h1, h2, h3⟩
      · have := (e3 (linLen m / 2048) (.raw (padSector (slice (List.replicate n (0 : UInt8)) (2048 * 0) 2048)))).2
          (.inr ⟨0, by simp; omega, rfl, rfl⟩)
        simp at this
      · have hlast := (e3 (linLen m / 2048 + (n / 2048 - 1))
          (.raw (padSector (slice (List.replicate n (0 : UInt8)) (2048 * (n / 2048 - 1)) 2048)))).2
          (.inr ⟨n / 2048 - 1, by rw [List.length_replicate]; omega, rfl, rfl⟩)
        have h4 := h3 _ hlast
        simp only at h4
        have h5 : k * 2048 + 2048 ≤ linLen m + n := by
          rcases (e3 k b).1 h1 with hk | ⟨i, hi, hk, _⟩
          · have := hbelow _ hk; simp only at this; omega
          · rw [List.length_replicate] at hi; omega
        rw [h2]
        clear hrun e1 e3 hz hlast h3 hbelow
        omega
    · intro k b hk
      rcases (e3 k b).1 hk with hk | ⟨i, hi, hk, hb⟩
      · exact .inl hk
      · right
        rw [List.length_replicate] at hi
        refine ⟨by rw [hb, hz i hi], fun b' hb' => ?_⟩
        have := hbelow _ hb'; simp only at this; omega
  · next hr =>
    refine ⟨m, rfl, ?_, hm.sorted, fun x hx => hx, fun k b hk => .inl hk⟩
    omega

theorem sector_ext {img d : Bytes} {k : Nat} (hl : d.length = 2048) (h2 : 2048 * k + 2048 ≤ img.length)
    (h : ∀ j, j < 2048 → 2048 * k + j < img.length → img[2048 * k + j]? = d[j]?) :
    slice img (2048 * k) 2048 = d := by
  apply List.ext_getElem?
  intro j
  simp only [slice, List.getElem?_take, List.getElem?_drop]
  split
  · next hj => exact h j hj (by omega)
  · rw [List.getElem?_eq_none (by omega)]

theorem padSector_length {d : Bytes} (h : d.length ≤ 2048) : (padSector d).length = 2048 := by
  simp only [padSector, List.length_append, List.length_replicate]; omega

/-- Packing into the map shows the same image as packing into a file. -/
theorem linear_main {fs : SourceFs} {faults : Faults} {fuel : Nat} {s' : PackState ImgFile}
    {content : Path → Bytes} (hb : Bounded fs) (hf : FaithfulTo fs content)
    (h : createImage (fileEnv fs faults) fuel ⟨⟨[], []⟩, []⟩ = (.ok (), s')) :
    ∃ m, createImage (linearEnv fs.readDir fs.pathToString) fuel ⟨[], []⟩ = (.ok (), ⟨m, s'.log⟩) ∧
      linLen m = s'.dev.img.length ∧ m.Sorted ∧
      (∀ k p i, m.get k = some (.file p i) → ∃ q e, EntryIn fs.readDir q e ∧ e.isDir = false ∧
        p = q ++ [e.name] ∧ 2048 * i < e.len ∧ (content p).length = e.len) ∧
      ∀ k, 2048 * k < s'.dev.img.length →
        slice s'.dev.img (2048 * k) 2048 = match m.get k with
          | none => List.replicate 2048 0
          | some (.raw d) => d
          | some (.file p i) => padSector (slice (content p) (2048 * i) 2048) := by
  obtain ⟨h1, h2⟩ := createImage_trace fs faults fuel [] h
  rcases h2 with ⟨h2, _⟩ | ⟨hres, hok, P, hT, _, hP⟩
  · exact absurd rfl h2
  obtain ⟨hP, hlog⟩ := hP rfl
  rcases createP_inv fs.readDir fs.pathToString fuel with
    ⟨_, k2⟩ | ⟨D, M, rootW, rootSize, next, recs, n', rest, hS, ⟨k1, rfl, k3, k4⟩ | ⟨k1, k2⟩⟩
  · exact absurd hres k2
  · rw [k4] at hok hT hP hlog
    generalize hops : planOps fs.pathToString D recs ++ [descOp rootSize] = ops at hok hT hP hlog k4
    have hO : OpsOK fs ops := by
      rw [← hops]; exact hS.opsOK hf (fun o ho => hok o (by rw [← hops]; simp [ho]))
    have hWd : (ops.flatMap (opWrites fs)).Pairwise DisjW := by
      rw [← hops, List.flatMap_append]; exact hS.all_disjoint hb
    obtain ⟨m1, e1, e2⟩ := runOps_lin fs.readDir fs.pathToString (ops := ops) (s := ⟨[], []⟩) LinOK.nil
      hO.aligned (by simpa using hO.disj)
    rw [List.nil_append] at e2
    obtain ⟨m', p1, p2, p3, p4, p5⟩ := padImage_lin fs.readDir fs.pathToString (ops.flatMap opReports) e2
    have hlen1 := hO.length e2
    have himg : s'.dev.img = applyTrace [] (ops.flatMap (opWrites fs) ++ P) := by rw [h1, hT]
    have hPz : ∀ w ∈ P, ∀ b ∈ w.2, b = 0 := by
      intro w hw b hbm
      rw [hP] at hw
      unfold padOf at hw
      split at hw
      · rw [List.mem_singleton] at hw; subst hw
        exact List.eq_of_mem_replicate hbm
      · simp at hw
    have hlen : s'.dev.img.length = ((applyTrace [] (ops.flatMap (opWrites fs))).length + 65535) / 65536 * 65536 := by
      rw [himg, applyTrace_append, hP]
      generalize applyTrace [] (ops.flatMap (opWrites fs)) = F
      unfold padOf
      split
      · next hr =>
        simp only [applyTrace, List.foldl_cons, List.foldl_nil, writeAt_length]
        rw [if_neg (by intro he; have := congrArg List.length he; rw [List.length_replicate, List.length_nil] at this; omega), List.length_replicate]
        omega
      · simp only [applyTrace, List.foldl_nil]; omega
    have hat : ∀ w ∈ ops.flatMap (opWrites fs), At s'.dev.img w.1 w.2 := by
      intro w hw
      rw [himg, applyTrace_append]
      by_cases hne : w.2 = []
      · intro i hi; rw [hne] at hi; simp at hi
      refine At.trace (applyTrace_at hWd w hw) ?_
      intro x hx
      have := (applyTrace_length (img := []) (W := ops.flatMap (opWrites fs))).2 w hw hne
      have hx1 := torn_pad (P := P) (by rw [hP]; exact .refl _) x hx
      left
      rw [hx1]; exact this
    have hfile : ∀ k p i, (k, Block.file p i) ∈ m' → (k, Block.file p i) ∈ m1 := by
      intro k p i hk
      rcases p5 _ _ hk with hk | ⟨hk, _⟩
      · exact hk
      · cases hk
    refine ⟨m', ?_, ?_, p3, ?_, ?_⟩
    · rw [createImage_eq]
      change ((createP fs.readDir fs.pathToString fuel).run _ >>= fun _ => padImage _ >>= fun _ =>
        PM.report .finishedPacking) _ = _
      simp only [PM.bind_def, Pl.run, k4, e1, k1, PM.lift, List.nil_append, p1, PM.report, hlog]
    · rw [p2, hlen, hlen1]
      generalize (applyTrace [] (ops.flatMap (opWrites fs))).length = L
      omega
    · intro k p i hk
      obtain ⟨o, ho, hbk⟩ := (e2.mem _ _).1 (hfile k p i ((SecMap.get_iff p3 _ _).1 hk))
      cases o with
      | report => exact absurd hbk id
      | write => obtain ⟨_, _, _, he⟩ := hbk; cases he
      | copy q out n =>
        obtain ⟨j, h3, _, he⟩ := hbk
        cases he
        have ho' : Op.copy p out n ∈ planOps fs.pathToString D recs := by
          rw [← hops] at ho
          rcases List.mem_append.1 ho with ho | ho
          · exact ho
          · rw [List.mem_singleton] at ho; cases ho
        obtain ⟨q, e, g1, g2, rfl, rfl⟩ := hS.copy_entry ho'
        obtain ⟨c, hc⟩ := hok _ ho
        exact ⟨q, e, g1, g2, rfl, h3, (hf q e c g1 g2 hc).2⟩
    · intro k hk
      have hfull : 2048 * k + 2048 ≤ s'.dev.img.length := by rw [hlen] at hk ⊢; omega
      have hop : ∀ b, (k, b) ∈ m1 → slice s'.dev.img (2048 * k) 2048 = match some b with
          | none => List.replicate 2048 0
          | some (.raw d) => d
          | some (.file p i) => padSector (slice (content p) (2048 * i) 2048) := by
        intro b hbm
        obtain ⟨o, ho, hbk⟩ := (e2.mem _ _).1 hbm
        have hsl : ∀ (d : Bytes) (i : Nat), (padSector (slice d (2048 * i) 2048)).length = 2048 :=
          fun d i => padSector_length (by simp [slice]; omega)
        cases o with
        | report => exact absurd hbk id
        | write off d =>
          obtain ⟨i, i1, i2, rfl⟩ := hbk
          have hal : off % 2048 = 0 := hO.aligned _ ho
          refine sector_ext (hsl _ _) hfull ?_
          intro j hj hx
          have e : 2048 * k + j = off + 2048 * i + j := by omega
          rw [e] at hx ⊢
          exact hO.byte himg hat hPz ho (off := off) (d := d) ⟨rfl, rfl⟩ i1 hj hx
        | copy p out n =>
          obtain ⟨i, i1, i2, rfl⟩ := hbk
          have hal : out % 2048 = 0 := hO.aligned _ ho
          have ho' : Op.copy p out n ∈ planOps fs.pathToString D recs := by
            rw [← hops] at ho
            rcases List.mem_append.1 ho with ho | ho
            · exact ho
            · rw [List.mem_singleton] at ho; cases ho
          obtain ⟨q, e, g1, g2, rfl, rfl⟩ := hS.copy_entry ho'
          obtain ⟨c, hc⟩ := hok _ ho
          obtain ⟨f1, f2⟩ := hf q e c g1 g2 hc
          refine sector_ext (hsl _ _) hfull ?_
          intro j hj hx
          have e : 2048 * k + j = out + 2048 * i + j := by omega
          rw [e] at hx ⊢
          refine hO.byte himg hat hPz ho (off := out) (d := content (q ++ [_])) ⟨rfl, f1.symm, f2⟩ ?_ hj hx
          rw [f2]; exact i1
      cases hg : m'.get k with
      | none =>
        refine sector_ext List.length_replicate hfull ?_
        intro j hj hx
        rw [List.getElem?_replicate, if_pos hj]
        refine hO.gap himg hPz ?_ hj hx
        intro o ho b hbk
        exact (SecMap.get_none p3 k).1 hg b (p4 _ ((e2.mem _ _).2 ⟨o, ho, hbk⟩))
      | some b =>
        rcases p5 k b ((SecMap.get_iff p3 _ _).1 hg) with hb' | ⟨rfl, hn⟩
        · exact hop b hb'
        · refine sector_ext List.length_replicate hfull ?_
          intro j hj hx
          rw [List.getElem?_replicate, if_pos hj]
          exact hO.gap himg hPz (fun o ho b hbk => hn b ((e2.mem _ _).2 ⟨o, ho, hbk⟩)) hj hx
  · exact absurd hres k1

end Xdvdfs

namespace Xdvdfs

open Spec Props

/-- One sector through the copier of the standard filesystem. -/
theorem stdBufCopy_sector {read : Path → (off n : Nat) → Res Bytes} {p : Path} {c : Bytes} {i : Nat}
    (h : read p (2048 * i) 2048 = .ok (slice c (2048 * i) 2048)) :
    stdBufCopy read p (List.replicate 2048 0) (2048 * i) 0 2048 =
      .ok (2048, padSector (slice c (2048 * i) 2048)) := by
  have hl : (slice c (2048 * i) 2048).length ≤ 2048 := by simp [slice]; omega
  unfold stdBufCopy
  have e1 : min 2048 ((List.replicate 2048 (0 : UInt8)).length - 0) = 2048 := by
    rw [List.length_replicate]; rfl
  rw [if_neg (by rw [List.length_replicate]; decide)]
  simp only [e1, h, Res.ok_bind]
  generalize slice c (2048 * i) 2048 = g at hl ⊢
  rw [if_neg (by omega)]
  simp only [Nat.zero_add, List.take_zero, List.nil_append]
  rw [List.take_append_of_le_length (Nat.le_refl _), List.take_length,
    List.drop_eq_nil_of_le (by rw [List.length_replicate]; exact Nat.le_refl _), List.append_nil]
  rfl

/-- Operations on a sector map never fail. -/
theorem linear_returns {rd : ReadDir} {pts : Path → Str} {fuel : Nat}
    (h : (createP rd pts fuel).res.Returns) :
    (createImage (linearEnv rd pts) fuel ⟨[], []⟩).1.Returns ∧
    ((createP rd pts fuel).res = .ok () → (createImage (linearEnv rd pts) fuel ⟨[], []⟩).1 = .ok ()) := by
  have hrun : ∃ m ops, runOps (linearEnv rd pts) (createP rd pts fuel).ops ⟨[], []⟩ =
      (.ok (), ⟨m, (createP rd pts fuel).ops.flatMap opReports⟩) ∧ LinOK m ops := by
    rcases createP_inv rd pts fuel with
      ⟨k1, k2⟩ | ⟨D, M, rootW, rootSize, next, recs, n', rest, hS, ⟨k1, rfl, k3, k4⟩ | ⟨k1, k2⟩⟩
    · have hb : ∀ o ∈ (createP rd pts fuel).ops, ∀ k b, ¬ OpBlock o k b := by
        intro o ho k b hb
        have := k1 o ho
        cases o <;> first | exact absurd hb id | exact absurd this id
      obtain ⟨m, e1, e2⟩ := runOps_lin rd pts (ops := (createP rd pts fuel).ops) (s := ⟨[], []⟩) LinOK.nil
        (fun o ho => by have := k1 o ho; cases o <;> first | trivial | exact absurd this id)
        (by
          rw [List.nil_append, List.pairwise_iff_getElem]
          intro i j hi hj _ k b b' h1
          exact absurd h1 (hb _ (List.getElem_mem _) k b))
      exact ⟨m, _, e1, e2⟩
    · rw [k4]
      obtain ⟨m, e1, e2⟩ := runOps_lin rd pts (ops := planOps pts D recs ++ [descOp rootSize])
        (s := ⟨[], []⟩) LinOK.nil (by
          intro o ho
          rcases List.mem_append.1 ho with ho | ho
          · exact planOps_aligned _ _ _ o ho
          · rw [List.mem_singleton] at ho; subst ho; exact descOp_aligned _) (by simpa using hS.ops_disjoint)
      exact ⟨m, _, e1, e2⟩
    · rw [k2]
      obtain ⟨m, e1, e2⟩ := runOps_lin rd pts (ops := planOps pts D recs)
        (s := ⟨[], []⟩) LinOK.nil (planOps_aligned _ _ _)
        (by simpa using (List.pairwise_append.1 hS.ops_disjoint).1)
      exact ⟨m, _, e1, e2⟩
  obtain ⟨m, ops, e1, e2⟩ := hrun
  obtain ⟨m', p1, _⟩ := padImage_lin rd pts ((createP rd pts fuel).ops.flatMap opReports) e2
  have hc : createImage (linearEnv rd pts) fuel ⟨[], []⟩ =
      ((createP rd pts fuel).run (linearEnv rd pts) >>= fun _ => padImage (linearEnv rd pts) >>= fun _ =>
        PM.report .finishedPacking) ⟨[], []⟩ := by rw [createImage_eq]; rfl
  rw [hc]
  simp only [PM.bind_def, Pl.run, e1, PM.lift]
  cases hr : (createP rd pts fuel).res with
  | ok u =>
    cases u
    simp only [p1, PM.report]
    simp [Res.Returns]
  | err e => simp [Res.Returns]
  | panic => rw [hr] at h; exact absurd rfl h.1
  | hang => rw [hr] at h; exact absurd rfl h.2

end Xdvdfs
