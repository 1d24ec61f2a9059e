import Verif.Spec.Desktop
import Verif.Proof.Compress
import Verif.Proof.WebUi
import Verif.Props.WebUi
import Verif.Props.CliPaths
import Verif.Props.CliUnpack
import Verif.Props.CompressArgs

/-!
# Lemmas about the desktop application
-/

namespace Xdvdfs

open Spec

theorem quiet_ne {α : Type} {r : Res α} {e : Str} : quiet r ≠ .ok (some e) := by
  cases r <;> simp [quiet]

theorem quiet_ok {α : Type} {r : Res α} {x : Option Str} (h : quiet r = .ok x) : x = none := by
  cases r <;> simp_all [quiet]

/-! ## The host -/

theorem stat_sameDirs {h : Host} {a b : HostFs} (hab : SameDirs a b) {path : Str} {p : HostPath} {n : HostNode}
    (hs : h.stat a path = some (p, n)) (hp : b p = some n) : h.stat b path = some (p, n) := by
  have hr := (stat_some hs).1
  have hf := (stat_some hs).2.2
  unfold Host.stat at hs ⊢
  rw [← resolve_sameDirs hab, hr]
  rw [hr] at hs
  simp only [hf, hp] at hs ⊢
  exact hs

theorem set_sameDirs {fs : HostFs} {p : HostPath} {b : Bytes} (hp : fs p ≠ some .dir) :
    SameDirs fs (fs.set p (.file b)) := by
  intro q
  by_cases hq : q = p
  · subst hq
    rw [set_same]
    simp [hp]
  · rw [set_other hq]

theorem set_set (fs : HostFs) (p : HostPath) (a b : HostNode) : (fs.set p a).set p b = fs.set p b := by
  funext q
  simp only [HostFs.set]
  split <;> rfl

theorem openOutput_in {h : Host} {fs : HostFs} {path name : Str} {d : HostPath} (ho : OutputIn h fs path name d) :
    h.openOutput path fs = .ok (d ++ [name], fs.set (d ++ [name]) (.file [])) := by
  obtain ⟨⟨dir, rfl, hn, hd⟩, h1, h2⟩ := ho
  unfold Host.openOutput
  rw [resolve_append hd hn]
  simp only
  rw [if_neg]
  rw [splitSlash_name hd.1 hn.2.1]
  rintro (h | h | h | h | h)
  · exact h1 h
  · exact hn.1 (Option.some.inj h)
  · exact hn.2.2.2.1 (Option.some.inj h)
  · exact hn.2.2.2.2 (Option.some.inj h)
  · exact h2 h

theorem outputIn_place {h : Host} {fs : HostFs} {path name : Str} {d : HostPath} (ho : OutputIn h fs path name d) :
    placeOf h path = d ++ [name] := by
  obtain ⟨⟨dir, rfl, hn, hd⟩, _, _⟩ := ho
  exact place_append hd hn

/-! ## pack_image -/

theorem deskImageOpen_eq (t : Tool) (img : Bytes) (faults : Faults) :
    (deskImageOpen t img faults).1 = (packImageOpen t img faults).1 ∧
    (deskImageOpen t img faults).2.dev = (packImageOpen t img faults).2 := by
  unfold deskImageOpen packImageOpen
  cases offsetNew (fileDev img) with
  | ok base =>
    simp only
    cases ImgFs.new (offsetDev (fileDev img) base) with
    | ok o => cases o <;> exact ⟨rfl, rfl⟩
    | err _ => exact ⟨rfl, rfl⟩
    | panic => exact ⟨rfl, rfl⟩
    | hang => exact ⟨rfl, rfl⟩
  | err _ => exact ⟨rfl, rfl⟩
  | panic => exact ⟨rfl, rfl⟩
  | hang => exact ⟨rfl, rfl⟩

/-! ## unpack_image -/

theorem deskUnpackLoop_eq (h : Host) (image : HostPath) (base : Nat) (clones : Bool) (dest : Str) :
    ∀ (xs : List (Str × DirEnt)) (fs : HostFs),
      ((deskUnpackLoop h image base clones dest xs fs).1, (deskUnpackLoop h image base clones dest xs fs).2.2) =
        copyoutLoopAt h image base clones dest xs fs ∧
      (∃ k, (deskUnpackLoop h image base clones dest xs fs).2.1 =
        (xs.take k).map (fun x => Progress.fileAdded (pathJoin (pathJoin dest (trimSlashes x.1)) x.2.nameStr) 0)) ∧
      ((deskUnpackLoop h image base clones dest xs fs).1 = .ok () →
        (deskUnpackLoop h image base clones dest xs fs).2.1 =
          xs.map (fun x => Progress.fileAdded (pathJoin (pathJoin dest (trimSlashes x.1)) x.2.nameStr) 0)) := by
  intro xs
  induction xs with
  | nil => intro fs; exact ⟨rfl, ⟨0, rfl⟩, fun _ => rfl⟩
  | cons x xs ih =>
    intro fs
    unfold deskUnpackLoop copyoutLoopAt
    cases hr : copyoutEntryAt h image base clones dest x fs with
    | mk r fs' =>
      cases r with
      | ok u =>
        obtain ⟨h1, ⟨k, h2⟩, h3⟩ := ih fs'
        refine ⟨h1, ⟨k + 1, ?_⟩, fun h => ?_⟩
        · simp only [h2, List.take_succ_cons, List.map_cons]
        · simp only [h3 h, List.map_cons]
      | err e => exact ⟨rfl, ⟨1, rfl⟩, nofun⟩
      | panic => exact ⟨rfl, ⟨1, rfl⟩, nofun⟩
      | hang => exact ⟨rfl, ⟨1, rfl⟩, nofun⟩

/-! ## Pages -/

/-- What a message of a running job does to the page "Pack". -/
def packMid (p : PackPage F D) : PackMsg F D → PackPage F D
  | .updateProgress r => p.report r
  | .changeState s => { p with stage := s }
  | _ => p

theorem pack_reports {fname : F → Str} {dname : D → Str} (hf : ∀ f, (fileName (fname f)).isSome)
    (hd : ∀ d, (fileName (dname d)).isSome) : ∀ (ms : List (PackMsg F D)) (es : List (UiEvent (PackMsg F D) F D))
    {s : UiSys (PackPage F D) (Picked F D × F)}, Happens (packDef fname dname) es (.ok s) → s.jobs ≠ [] →
    (∀ m ∈ ms, (packDef fname dname).midMsg m) →
    Happens (packDef fname dname) (es ++ ms.map (.report 0)) (.ok { s with page := ms.foldl packMid s.page }) := by
  intro ms
  induction ms with
  | nil => intro es s h _ _; simpa using h
  | cons m ms ih =>
    intro es s h hj hm
    have hstep : s.step (packDef fname dname) (.report 0 m) = some (s.deliver (packDef fname dname) m) := by
      simp only [UiSys.step]
      rw [if_pos ⟨List.length_pos_iff.2 hj, hm m (by simp)⟩]
    have hhap : Happens (packDef fname dname) (es ++ [.report 0 m]) (s.deliver (packDef fname dname) m) := by
      simp only [Happens] at h ⊢
      rw [runUi_append, h]
      simp only [runUi, hstep]
      split
      · next s' hs => exact hs.symm ▸ rfl
      · rfl
    obtain ⟨s1, h1, _⟩ := pack_happens hf hd hhap
    have hu : s.page.update m = .ok (packMid s.page m, none) := by
      have := hm m (by simp)
      cases m with
      | updateProgress r => rfl
      | changeState st => rfl
      | _ => simp [packDef] at this
    have hs1 : s1 = { s with page := packMid s.page m } := by
      simp only [UiSys.deliver, packDef, hu, Res.ok_bind] at h1
      obtain ⟨v, _, h1⟩ := Res.bind_eq_ok.1 h1
      cases h1
      simp
    rw [h1, hs1] at hhap
    have := ih (es ++ [.report 0 m]) (s := { s with page := packMid s.page m }) hhap hj (fun m' hm' => hm m' (by simp [hm']))
    simpa using this

theorem pack_ends {fname : F → Str} {dname : D → Str} (hf : ∀ f, (fileName (fname f)).isSome)
    (hd : ∀ d, (fileName (dname d)).isSome) {es : List (UiEvent (PackMsg F D) F D)}
    {s : UiSys (PackPage F D) (Picked F D × F)} (h : Happens (packDef fname dname) es (.ok s)) (hj : s.jobs ≠ [])
    {st : PackStage} (hst : st = .finished ∨ ∃ e, st = .error e) :
    ∃ s', Happens (packDef fname dname) (es ++ [.ends 0 (.changeState st)]) (.ok s') ∧
      s'.page = { s.page with stage := st } ∧ s'.jobs = [] := by
  have hm : (packDef fname dname).endMsg (.changeState st) = true := by
    rcases hst with rfl | ⟨e, rfl⟩ <;> rfl
  have hstep : s.step (packDef fname dname) (.ends 0 (.changeState st)) =
      some (UiSys.deliver (packDef fname dname) { s with jobs := s.jobs.eraseIdx 0 } (.changeState st)) := by
    simp only [UiSys.step]
    rw [if_pos ⟨List.length_pos_iff.2 hj, hm⟩]
  have hhap : Happens (packDef fname dname) (es ++ [.ends 0 (.changeState st)])
      (UiSys.deliver (packDef fname dname) { s with jobs := s.jobs.eraseIdx 0 } (.changeState st)) := by
    simp only [Happens] at h ⊢
    rw [runUi_append, h]
    simp only [runUi, hstep]
    split
    · next s' hs => exact hs.symm ▸ rfl
    · rfl
  obtain ⟨s1, h1, _⟩ := pack_happens hf hd hhap
  rw [h1] at hhap
  refine ⟨s1, hhap, ?_⟩
  obtain ⟨_, heq, hi⟩ := pack_happens hf hd h
  cases heq
  obtain ⟨_, i, f, hjobs, _⟩ := hi.busy hj
  simp only [UiSys.deliver, packDef, PackPage.update, Res.ok_bind] at h1
  obtain ⟨v, _, h1⟩ := Res.bind_eq_ok.1 h1
  cases h1
  simp [hjobs]

/-! ## Progress -/

/-- The reports of a pack with `n` entries. -/
structure PackLog (n : Nat) (log : List Progress) : Prop where
  shape : ∃ (ds : List Nat) (m : Nat) (placed : List Progress),
    log = ds.map .discoveredDirectory ++ [.fileCount n, .dirCount m] ++ placed ++ [.finishedPacking] ∧
    (∀ p ∈ placed, (∃ a b, p = .dirAdded a b) ∨ ∃ a b, p = .fileAdded a b) ∧
    (placed.filter (fun p => match p with | .fileAdded _ _ => true | _ => false)).length = n

theorem createImage_packLog {fs : SourceFs} {faults : Faults} {fuel : Nat} {img0 : Bytes} {s' : PackState ImgFile}
    (h : createImage (fileEnv fs faults) fuel ⟨⟨img0, []⟩, []⟩ = (.ok (), s')) :
    ∃ n, HasEntries fs.readDir n ∧ PackLog n s'.log := by
  obtain ⟨dirs, sectorOf, placed, h1, h2, h3, h4, _⟩ := Props.C37_progress_reports h
  refine ⟨(entryPaths dirs).length, ⟨dirs, h1, h2, rfl⟩, ⟨dirs.map (fun x => x.2.length), dirs.length, placed, ?_, ?_, ?_⟩⟩
  · rw [h3]; simp
  · intro p hp
    rcases List.mem_append.1 (h4.mem_iff.1 hp) with hp | hp
    · obtain ⟨x, _, rfl⟩ := List.mem_map.1 hp
      exact .inl ⟨_, _, rfl⟩
    · obtain ⟨x, _, rfl⟩ := List.mem_map.1 hp
      exact .inr ⟨_, _, rfl⟩
  · rw [(h4.filter _).length_eq, List.filter_append, List.length_append]
    rw [List.filter_eq_nil_iff.2 (by intro a ha; obtain ⟨x, _, rfl⟩ := List.mem_map.1 ha; simp),
      List.filter_eq_self.2 (by intro a ha; obtain ⟨x, _, rfl⟩ := List.mem_map.1 ha; simp)]
    simp

theorem buffered_packLog {fs : SourceFs} {pol : BufPolicy} {faults : Faults} {fuel : Nat} {s' : PackState BufFile}
    (h : createImage (bufEnv fs pol faults) fuel ⟨⟨[], 0, [], 0⟩, []⟩ = (.ok (), s')) :
    ∃ n, HasEntries fs.readDir n ∧ PackLog n s'.log := by
  obtain ⟨r, s1, e, _, h2⟩ := createImage_buf fs pol faults fuel
  rw [h] at e
  cases e
  obtain ⟨k1, k2, _, _, k5⟩ := h2 rfl
  obtain ⟨s2, g1, _, g3⟩ := Props.plain_pack k1 k2
  rw [k5, ← g3]
  exact createImage_packLog g1

/-- The part of the page that the reports change. -/
def bar (p : PackPage F D) : UInt32 × UInt32 := (p.progress, p.count)

theorem report_placed : ∀ (placed : List Progress) (p : PackPage F D) {n : Nat}, n < 2 ^ 32 →
    (∀ q ∈ placed, (∃ a b, q = .dirAdded a b) ∨ ∃ a b, q = .fileAdded a b) →
    p.progress.toNat + (placed.filter (fun p => match p with | .fileAdded _ _ => true | _ => false)).length ≤ n →
    p.count.toNat = n →
    (placed.foldl (fun p r => p.report r) p).progress.toNat =
      p.progress.toNat + (placed.filter (fun p => match p with | .fileAdded _ _ => true | _ => false)).length ∧
    (placed.foldl (fun p r => p.report r) p).count.toNat = n ∧
    (placed.foldl (fun p r => p.report r) p).stage = p.stage := by
  intro placed
  induction placed with
  | nil => intro p n _ _ _ hc; exact ⟨rfl, hc, rfl⟩
  | cons q placed ih =>
    intro p n hn hq hle hc
    simp only [List.foldl_cons]
    rcases hq q (by simp) with ⟨a, b, rfl⟩ | ⟨a, b, rfl⟩
    · simp only [List.filter_cons_of_neg (p := fun p => match p with | Progress.fileAdded _ _ => true | _ => false)
        (a := Progress.dirAdded a b) (l := placed) (by simp)] at hle ⊢
      exact ih p hn (fun q h => hq q (by simp [h])) hle hc
    · simp only [List.filter_cons_of_pos (p := fun p => match p with | Progress.fileAdded _ _ => true | _ => false)
        (a := Progress.fileAdded a b) (l := placed) (by simp), List.length_cons] at hle ⊢
      have hadd : (p.progress + 1).toNat = p.progress.toNat + 1 := by
        rw [UInt32.toNat_add]
        show (p.progress.toNat + 1) % 2 ^ 32 = _
        rw [Nat.mod_eq_of_lt (by omega)]
      have := ih (p.report (.fileAdded a b)) hn (fun q h => hq q (by simp [h])) (by
        show (p.progress + 1).toNat + _ ≤ n
        rw [hadd]; omega) hc
      refine ⟨?_, this.2⟩
      rw [this.1]
      show (p.progress + 1).toNat + _ = _
      rw [hadd]; omega

theorem report_discover (ds : List Nat) (p : PackPage F D) :
    ((ds.map Progress.discoveredDirectory).foldl (fun p r => p.report r) p).progress = p.progress := by
  induction ds generalizing p with
  | nil => rfl
  | cons d ds ih => simp only [List.map_cons, List.foldl_cons]; rw [ih]; rfl

theorem percent_le {a b : UInt32} (hab : a.toNat ≤ b.toNat) (hb : 100 * b.toNat < 2 ^ 32) :
    (percent a b).toNat ≤ 100 := by
  unfold percent
  split
  · next h =>
    have hb0 : 0 < b.toNat := by
      rcases Nat.eq_zero_or_pos b.toNat with h0 | h0
      · exact absurd (UInt32.toNat_inj.1 (by rw [h0]; rfl)) h
      · exact h0
    rw [UInt32.toNat_div, UInt32.toNat_mul]
    show (100 * a.toNat) % 2 ^ 32 / b.toNat ≤ 100
    rw [Nat.mod_eq_of_lt (by omega)]
    exact Nat.div_le_of_le_mul (by rw [Nat.mul_comm b.toNat]; omega)
  · simp

theorem percent_zero {b : UInt32} : (percent 0 b).toNat = 0 := by
  unfold percent
  split
  · rw [UInt32.toNat_div, UInt32.toNat_mul]
    show (100 * 0) % 2 ^ 32 / _ = 0
    simp
  · rfl

theorem percent_full {a : UInt32} (ha : a ≠ 0) (hb : 100 * a.toNat < 2 ^ 32) : (percent a a).toNat = 100 := by
  unfold percent
  rw [if_pos ha]
  have hb0 : 0 < a.toNat := by
    rcases Nat.eq_zero_or_pos a.toNat with h0 | h0
    · exact absurd (UInt32.toNat_inj.1 (by rw [h0]; rfl)) ha
    · exact h0
  rw [UInt32.toNat_div, UInt32.toNat_mul]
  show (100 * a.toNat) % 2 ^ 32 / a.toNat = 100
  rw [Nat.mod_eq_of_lt hb]
  exact Nat.mul_div_cancel _ hb0

/-- While the reports of a pack come in, the bar makes sense; at the end it is full. -/
theorem packLog_bar {n : Nat} {log : List Progress} (hl : PackLog n log) (hn : n < 2 ^ 32) (p : PackPage F D)
    (hp : p.progress = 0) (k : Nat) :
    (((log.take k).foldl (fun p r => p.report r) p).progress = 0 ∨
      (((log.take k).foldl (fun p r => p.report r) p).count.toNat = n ∧
        ((log.take k).foldl (fun p r => p.report r) p).progress.toNat ≤ n)) ∧
    (log.length ≤ k → ((log.take k).foldl (fun p r => p.report r) p).count.toNat = n ∧
      ((log.take k).foldl (fun p r => p.report r) p).progress.toNat = n) := by
  obtain ⟨ds, m, placed, rfl, h2, h3⟩ := hl.shape
  rw [List.append_assoc, List.append_assoc, List.take_append, List.foldl_append, List.length_map,
    ← List.map_take]
  have hA : ((List.map Progress.discoveredDirectory (ds.take k)).foldl (fun p r => p.report r) p).progress = 0 := by
    rw [report_discover, hp]
  generalize (List.map Progress.discoveredDirectory (ds.take k)).foldl (fun p r => p.report r) p = p1 at hA
  rcases Nat.lt_or_ge k (ds.length + 1) with hk | hk
  · rw [show k - ds.length = 0 by omega]
    refine ⟨.inl hA, fun h => ?_⟩
    simp only [List.length_append, List.length_map, List.length_cons] at h
    omega
  · obtain ⟨j, rfl⟩ : ∃ j, k = ds.length + 1 + j := ⟨k - (ds.length + 1), by omega⟩
    rw [show ds.length + 1 + j - ds.length = j + 1 by omega]
    simp only [List.cons_append, List.nil_append, List.take_succ_cons, List.foldl_cons]
    have hc : (p1.report (.fileCount n)).count.toNat = n := UInt32.toNat_ofNat_of_lt' hn
    have hq : (p1.report (.fileCount n)).progress = 0 := hA
    generalize p1.report (.fileCount n) = p2 at hc hq
    cases j with
    | zero =>
      refine ⟨.inl hq, fun h => ?_⟩
      simp only [List.length_append, List.length_map, List.length_cons] at h
      omega
    | succ j =>
      simp only [List.take_succ_cons, List.foldl_cons]
      show ((List.foldl _ p2 _).progress = 0 ∨ _) ∧ _
      have hfl : ((placed.take j).filter (fun p => match p with | .fileAdded _ _ => true | _ => false)).length ≤ n := by
        rw [← h3]
        exact ((List.take_sublist j placed).filter _).length_le
      have hpl := report_placed (placed.take j) p2 hn (fun q hq => h2 q (List.mem_of_mem_take hq))
        (by rw [hq]; simpa using hfl) hc
      rw [hq] at hpl
      simp only [show (0 : UInt32).toNat = 0 from rfl, Nat.zero_add] at hpl
      rw [List.take_append, List.foldl_append]
      have hlast : ∀ q : PackPage F D,
          ((List.take (j - placed.length) [Progress.finishedPacking]).foldl (fun p r => p.report r) q).progress =
            q.progress ∧
          ((List.take (j - placed.length) [Progress.finishedPacking]).foldl (fun p r => p.report r) q).count = q.count := by
        intro q
        cases j - placed.length with
        | zero => exact ⟨rfl, rfl⟩
        | succ i => cases i <;> exact ⟨rfl, rfl⟩
      have hrep : p2.report (.dirCount m) = p2 := rfl
      rw [hrep]
      simp only [List.foldl_append, (hlast _).1, (hlast _).2]
      refine ⟨.inr ⟨hpl.2.1, by rw [hpl.1]; exact hfl⟩, fun h => ⟨hpl.2.1, ?_⟩⟩
      rw [hpl.1, List.take_of_length_le (by simp at h; omega), h3]

theorem mid_fold (p : PackPage F D) (rs : List Progress) :
    (rs.map (fun r => PackMsg.updateProgress (F := F) (D := D) r)).foldl packMid p = rs.foldl (fun p r => p.report r) p := by
  rw [List.foldl_map]
  rfl

/-! ## The other pages -/

/-- What a message of a running job does to the page "Unpack". -/
def unpackMid (p : UnpackPage F D) : UnpackMsg F D → UnpackPage F D
  | .updateProgress r => p.report r
  | .changeState s => { p with stage := s }
  | _ => p

theorem unpack_reports : ∀ (ms : List (UnpackMsg F D)) (es : List (UiEvent (UnpackMsg F D) F D))
    {s : UiSys (UnpackPage F D) (F × D)}, Happens unpackDef es (.ok s) → s.jobs ≠ [] →
    (∀ m ∈ ms, unpackDef (F := F) (D := D).midMsg m) →
    Happens unpackDef (es ++ ms.map (.report 0)) (.ok { s with page := ms.foldl unpackMid s.page }) := by
  intro ms
  induction ms with
  | nil => intro es s h _ _; simpa using h
  | cons m ms ih =>
    intro es s h hj hm
    have hu : s.page.update m = .ok (unpackMid s.page m, none) := by
      have := hm m (by simp)
      cases m with
      | updateProgress r => rfl
      | changeState st => rfl
      | _ => simp [unpackDef] at this
    have hstep : s.step unpackDef (.report 0 m) = some (.ok { s with page := unpackMid s.page m }) := by
      simp only [UiSys.step]
      rw [if_pos ⟨List.length_pos_iff.2 hj, hm m (by simp)⟩]
      simp [UiSys.deliver, unpackDef, hu, UnpackPage.view]
    have hhap : Happens unpackDef (es ++ [.report 0 m]) (.ok { s with page := unpackMid s.page m }) := by
      simp only [Happens] at h ⊢
      rw [runUi_append, h]
      simp only [runUi, hstep]
    have := ih (es ++ [.report 0 m]) (s := { s with page := unpackMid s.page m }) hhap hj
      (fun m' hm' => hm m' (by simp [hm']))
    simpa using this

theorem unpack_ends {es : List (UiEvent (UnpackMsg F D) F D)} {s : UiSys (UnpackPage F D) (F × D)}
    (h : Happens unpackDef es (.ok s)) (hj : s.jobs ≠ []) {st : UnpackStage} (hst : st = .finished ∨ ∃ e, st = .error e) :
    Happens unpackDef (es ++ [.ends 0 (.changeState st)])
      (.ok { s with page := { s.page with stage := st }, jobs := s.jobs.eraseIdx 0 }) := by
  have hm : unpackDef (F := F) (D := D).endMsg (.changeState st) = true := by
    rcases hst with rfl | ⟨e, rfl⟩ <;> rfl
  have hstep : s.step unpackDef (.ends 0 (.changeState st)) =
      some (.ok { s with page := { s.page with stage := st }, jobs := s.jobs.eraseIdx 0 }) := by
    simp only [UiSys.step]
    rw [if_pos ⟨List.length_pos_iff.2 hj, hm⟩]
    simp [UiSys.deliver, unpackDef, UnpackPage.update, UnpackPage.view]
  simp only [Happens] at h ⊢
  rw [runUi_append, h]
  simp only [runUi, hstep]

/-- What a message of a running job does to the page "Compress". -/
def compMid (p : CompPage F D) : CompMsg F D → CompPage F D
  | .updateProgress r => p.report r
  | .updateCompression r => p.reportCiso r
  | .changeState s => { p with stage := s }
  | _ => p

theorem compMid_type (p : CompPage F D) (m : CompMsg F D) : (compMid p m).inputType = p.inputType := by
  cases m with
  | updateProgress r => cases r <;> rfl
  | updateCompression r => cases r <;> rfl
  | _ => rfl

theorem comp_reports : ∀ (ms : List (CompMsg F D)) (es : List (UiEvent (CompMsg F D) F D))
    {s : UiSys (CompPage F D) (Picked F D × D)}, Happens compDef es (.ok s) → s.jobs ≠ [] → s.page.inputType.isSome →
    (∀ m ∈ ms, compDef (F := F) (D := D).midMsg m) →
    ∃ p, p.inputType = s.page.inputType ∧ Happens compDef (es ++ ms.map (.report 0)) (.ok { s with page := p }) := by
  intro ms
  induction ms with
  | nil => intro es s h _ _ _; exact ⟨s.page, rfl, by simpa using h⟩
  | cons m ms ih =>
    intro es s h hj ht hm
    have hu : s.page.update m = .ok (compMid s.page m, none) := by
      have := hm m (by simp)
      cases m with
      | updateProgress r => rfl
      | updateCompression r => rfl
      | changeState st => rfl
      | _ => simp [compDef] at this
    obtain ⟨v, hv, _⟩ := compView_ok (compMid s.page m) (fun _ => by rw [compMid_type]; exact ht)
    have hstep : s.step compDef (.report 0 m) = some (.ok { s with page := compMid s.page m }) := by
      simp only [UiSys.step]
      rw [if_pos ⟨List.length_pos_iff.2 hj, hm m (by simp)⟩]
      simp [UiSys.deliver, compDef, hu, hv]
    have hhap : Happens compDef (es ++ [.report 0 m]) (.ok { s with page := compMid s.page m }) := by
      simp only [Happens] at h ⊢
      rw [runUi_append, h]
      simp only [runUi, hstep]
    obtain ⟨p, hp, this⟩ := ih (es ++ [.report 0 m]) (s := { s with page := compMid s.page m }) hhap hj
      (by rw [compMid_type]; exact ht) (fun m' hm' => hm m' (by simp [hm']))
    exact ⟨p, by rw [hp, compMid_type], by simpa using this⟩

theorem comp_ends {es : List (UiEvent (CompMsg F D) F D)} {s : UiSys (CompPage F D) (Picked F D × D)}
    (h : Happens compDef es (.ok s)) (hj : s.jobs ≠ []) (ht : s.page.inputType.isSome) {st : CompStage}
    (hst : st = .finished ∨ ∃ e, st = .error e) :
    ∃ v, Happens compDef (es ++ [.ends 0 (.changeState st)])
      (.ok { s with page := { s.page with stage := st }, jobs := s.jobs.eraseIdx 0 }) ∧
      Shows compDef (⟨{ s.page with stage := st }, s.dialog, s.jobs.eraseIdx 0⟩ : UiSys (CompPage F D) (Picked F D × D)) v ∧
      v.error = st.errorText := by
  have hm : compDef (F := F) (D := D).endMsg (.changeState st) = true := by
    rcases hst with rfl | ⟨e, rfl⟩ <;> rfl
  obtain ⟨v, hv, _, _, _, _, _, _, _, _, he⟩ := compView_ok { s.page with stage := st } (fun _ => ht)
  have hstep : s.step compDef (.ends 0 (.changeState st)) =
      some (.ok { s with page := { s.page with stage := st }, jobs := s.jobs.eraseIdx 0 }) := by
    simp only [UiSys.step]
    rw [if_pos ⟨List.length_pos_iff.2 hj, hm⟩]
    simp [UiSys.deliver, compDef, CompPage.update, hv]
  refine ⟨v, ?_, hv, he⟩
  simp only [Happens] at h ⊢
  rw [runUi_append, h]
  simp only [runUi, hstep]

theorem unpackMid_fold (p : UnpackPage F D) (rs : List Progress) :
    (rs.map (fun r => UnpackMsg.updateProgress (F := F) (D := D) r)).foldl unpackMid p =
      rs.foldl (fun p r => p.report r) p := by
  rw [List.foldl_map]
  rfl

theorem unpack_added : ∀ (rs : List (Str × Nat)) (p : UnpackPage F D) {n : Nat}, n < 2 ^ 32 →
    p.progress.toNat + rs.length ≤ n →
    ((rs.map (fun x => Progress.fileAdded x.1 x.2)).foldl (fun p r => p.report r) p).progress.toNat =
      p.progress.toNat + rs.length ∧
    ((rs.map (fun x => Progress.fileAdded x.1 x.2)).foldl (fun p r => p.report r) p).count = p.count := by
  intro rs
  induction rs with
  | nil => intro p n _ _; exact ⟨rfl, rfl⟩
  | cons x rs ih =>
    intro p n hn hle
    simp only [List.map_cons, List.foldl_cons, List.length_cons] at hle ⊢
    have hadd : (p.progress + 1).toNat = p.progress.toNat + 1 := by
      rw [UInt32.toNat_add]
      show (p.progress.toNat + 1) % 2 ^ 32 = _
      rw [Nat.mod_eq_of_lt (by omega)]
    obtain ⟨h1, h2⟩ := ih (p.report (.fileAdded x.1 x.2)) hn (by
      show (p.progress + 1).toNat + _ ≤ n
      omega)
    refine ⟨?_, h2⟩
    rw [h1]
    show (p.progress + 1).toNat + _ = _
    omega

end Xdvdfs
