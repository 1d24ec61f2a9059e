import Verif.Model.ReadCli
import Verif.Props.Show
import Verif.Proof.CopyOut

/-!
# Helpers for the reading commands
-/

namespace Xdvdfs

/-! ## The scan only looks where devices agree -/

theorem nextSector_agree {a b : Dev} (h : AgreeLow a b) {s : Scan} (hs : s.endSector * 2048 ≤ 2 ^ 44) :
    s.nextSector a = s.nextSector b := by
  unfold Scan.nextSector
  simp only
  split
  · rfl
  · next hlt => rw [h _ _ (by simp only [sectorSize]; omega)]

theorem nextSector_end {a : Dev} {s s' : Scan} (h : s.nextSector a = .ok s') : s'.endSector = s.endSector := by
  unfold Scan.nextSector at h
  simp only at h
  split at h
  · cases h; rfl
  · obtain ⟨_, _, h⟩ := Res.bind_eq_ok.1 h
    cases h; rfl

theorem scanStep_agree {a b : Dev} (h : AgreeLow a b) {s : Scan} (hs : s.endSector * 2048 ≤ 2 ^ 44) :
    s.step a = s.step b := by
  unfold Scan.step
  congr 1
  funext _
  simp only
  split
  · rw [nextSector_agree h hs]
  · congr 1
    funext _
    split
    · rw [nextSector_agree h (by exact hs)]
    · rfl

theorem scanStep_end {a : Dev} {s : Scan} {r} (h : s.step a = .ok r) :
    match r with
    | .inl s' => s'.endSector = s.endSector
    | .inr (_, s') => s'.endSector = s.endSector := by
  unfold Scan.step at h
  obtain ⟨_, _, h⟩ := Res.bind_eq_ok.1 h
  simp only at h
  split at h
  · split at h
    · obtain ⟨s', h1, h⟩ := Res.bind_eq_ok.1 h
      cases h
      exact nextSector_end h1
    · cases h; rfl
  · obtain ⟨_, _, h⟩ := Res.bind_eq_ok.1 h
    split at h
    · obtain ⟨s', h1, h⟩ := Res.bind_eq_ok.1 h
      cases h
      exact nextSector_end h1
    · cases h; rfl

theorem nextLoop_agree {a b : Dev} (h : AgreeLow a b) : ∀ (fuel : Nat) {s : Scan}, s.endSector * 2048 ≤ 2 ^ 44 →
    Scan.nextLoop a fuel s = Scan.nextLoop b fuel s ∧
    ∀ r, Scan.nextLoop a fuel s = .ok r → r.2.endSector = s.endSector := by
  intro fuel
  induction fuel with
  | zero => intro s _; exact ⟨rfl, nofun⟩
  | succ fuel ih =>
    intro s hs
    simp only [Scan.nextLoop]
    rw [← scanStep_agree h hs]
    cases hst : s.step a with
    | ok r =>
      have he := scanStep_end hst
      simp only [Res.ok_bind]
      cases r with
      | inl s' =>
        simp only at he ⊢
        obtain ⟨h1, h2⟩ := ih (s := s') (by rw [he]; exact hs)
        exact ⟨h1, fun r hr => by rw [h2 r hr, he]⟩
      | inr r =>
        obtain ⟨d, s'⟩ := r
        exact ⟨rfl, fun r hr => by cases hr; exact he⟩
    | err e => exact ⟨rfl, nofun⟩
    | panic => exact ⟨rfl, nofun⟩
    | hang => exact ⟨rfl, nofun⟩

theorem scanDrain_agree {a b : Dev} (h : AgreeLow a b) : ∀ (fuel : Nat) {s : Scan} (acc : List DirEnt),
    s.endSector * 2048 ≤ 2 ^ 44 → scanDrain a fuel s acc = scanDrain b fuel s acc := by
  intro fuel
  induction fuel with
  | zero => intro s acc _; rfl
  | succ fuel ih =>
    intro s acc hs
    have hn : Scan.next a (fuel + 1) s = Scan.next b (fuel + 1) s ∧
        ∀ r, Scan.next a (fuel + 1) s = .ok r → r.2.endSector = s.endSector := by
      unfold Scan.next
      split
      · exact ⟨rfl, fun r hr => by cases hr; rfl⟩
      · exact nextLoop_agree h (fuel + 1) hs
    simp only [scanDrain]
    rw [← hn.1]
    cases hr : Scan.next a (fuel + 1) s with
    | ok r =>
      obtain ⟨d, s'⟩ := r
      simp only [Res.ok_bind]
      cases d with
      | none => rfl
      | some d => exact ih _ (by rw [hn.2 _ hr]; exact hs)
    | err e => rfl
    | panic => rfl
    | hang => rfl

theorem lsScanLoop_agree {a b : Dev} (h : AgreeLow a b) : ∀ (fuel : Nat) {s : Scan} (out : List Str),
    s.endSector * 2048 ≤ 2 ^ 44 → lsScanLoop a fuel s out = lsScanLoop b fuel s out := by
  intro fuel
  induction fuel with
  | zero => intro s out _; rfl
  | succ fuel ih =>
    intro s out hs
    have hn : Scan.next a (fuel + 1) s = Scan.next b (fuel + 1) s ∧
        ∀ r, Scan.next a (fuel + 1) s = .ok r → r.2.endSector = s.endSector := by
      unfold Scan.next
      split
      · exact ⟨rfl, fun r hr => by cases hr; rfl⟩
      · exact nextLoop_agree h (fuel + 1) hs
    simp only [lsScanLoop]
    rw [← hn.1]
    cases hr : Scan.next a (fuel + 1) s with
    | ok r =>
      obtain ⟨d, s'⟩ := r
      cases d with
      | none => rfl
      | some d => exact ih _ (by rw [hn.2 _ hr]; exact hs)
    | err e => rfl
    | panic => rfl
    | hang => rfl

theorem scanInit_agree {a b : Dev} (h : AgreeLow a b) (tab : Region) :
    scanInit a tab = scanInit b tab ∧ ∀ s, scanInit b tab = .ok s → s.endSector * 2048 ≤ 2 ^ 44 := by
  unfold scanInit
  split
  · exact ⟨rfl, fun s hs => by cases hs; simp⟩
  · cases ho : tab.offset 0 with
    | ok off =>
      simp only [Res.ok_bind]
      rw [h _ _ (by have := offset_low ho; omega)]
      refine ⟨rfl, fun s hs => ?_⟩
      obtain ⟨buf, _, hs⟩ := Res.bind_eq_ok.1 hs
      cases hs
      have h1 := tab.sector.toNat_lt
      have h2 := tab.size.toNat_lt
      simp only
      omega
    | err e => exact ⟨rfl, nofun⟩
    | panic => exact ⟨rfl, nofun⟩
    | hang => exact ⟨rfl, nofun⟩

theorem scanAll_agree {a b : Dev} (h : AgreeLow a b) (tab : Region) (fuel : Nat) :
    scanAll a tab fuel = scanAll b tab fuel := by
  unfold scanAll scanInit
  split
  · simp only [Res.ok_bind]
    exact scanDrain_agree h fuel _ (by simp)
  · cases ho : tab.offset 0 with
    | ok off =>
      simp only [Res.ok_bind]
      rw [h _ _ (by have := offset_low ho; omega)]
      cases hb : b.read off 2048 with
      | ok buf =>
        simp only [Res.ok_bind, Res.pure_eq]
        refine scanDrain_agree h fuel _ ?_
        have h1 := tab.sector.toNat_lt
        have h2 := tab.size.toNat_lt
        simp only
        omega
      | err e => rfl
      | panic => rfl
      | hang => rfl
    | err e => rfl
    | panic => rfl
    | hang => rfl

/-! ## So do the commands -/

theorem md5Tree_agree {H : Type} (hash : Bytes → H) {a b : Dev} (h : AgreeLow a b) (base : Str) :
    ∀ (tree : List (Str × DirEnt)) (out : List (H × Str)), md5Tree hash a base tree out = md5Tree hash b base tree out := by
  intro tree
  induction tree with
  | nil => intro out; rfl
  | cons x xs ih =>
    intro out
    simp only [md5Tree, h.readDataAll]
    cases readDataAll b x.2.node.dirent <;> simp [ih]

theorem cmdMd5_agree {H : Type} (hash : Bytes → H) {a b : Dev} (h : AgreeLow a b) (vol : VolDesc) (path : Option Str)
    (fuel : Nat) : cmdMd5 hash a vol path fuel = cmdMd5 hash b vol path fuel := by
  unfold cmdMd5
  simp only [h.fileTree, h.walkPath, h.readDataAll, md5Tree_agree hash h]

theorem checksumLoop_agree {a b : Dev} (h : AgreeLow a b) : ∀ (l : List (Bytes × DirEnt)) (acc : Bytes),
    checksumLoop a l acc = checksumLoop b l acc := by
  intro l
  induction l with
  | nil => intro acc; rfl
  | cons x xs ih =>
    intro acc
    obtain ⟨p, d⟩ := x
    simp only [checksumLoop, ih, h.readDataAll]

theorem checksum_agree {H : Type} (hash : Bytes → H) {a b : Dev} (h : AgreeLow a b) (vol : VolDesc) (fuel : Nat) :
    checksum hash a vol fuel = checksum hash b vol fuel := by
  unfold checksum checksumInput
  simp only [h.fileTree, checksumLoop_agree h]

theorem cmdLs_agree {a b : Dev} (h : AgreeLow a b) (path : Str) (scan : Bool) (fuel : Nat) :
    cmdLs true a path scan fuel = cmdLs true b path scan fuel := by
  unfold cmdLs openVolume openImage
  simp only [if_true, Res.ok_bind, h.readVolume]
  cases readVolume b with
  | ok vol =>
    simp only [Res.ok_bind, Res.pure_eq, h.walkPath, scanAll_agree h, Props.walkDirentTree_agree h]
  | err e => rfl
  | panic => rfl
  | hang => rfl

theorem cmdTree_agree {a b : Dev} (h : AgreeLow a b) (checked : Bool) (image : Str) (fuel : Nat) :
    cmdTree checked true a image fuel = cmdTree checked true b image fuel := by
  unfold cmdTree openVolume openImage
  simp only [if_true, Res.ok_bind, h.readVolume]
  cases readVolume b with
  | ok vol => simp only [Res.ok_bind, Res.pure_eq, h.fileTree]
  | err e => rfl
  | panic => rfl
  | hang => rfl

theorem cmdInfo_agree {a b : Dev} (h : AgreeLow a b) (checked : Bool) (path : Option Str) (fuel : Nat) :
    cmdInfo checked true a path fuel = cmdInfo checked true b path fuel := by
  unfold cmdInfo openVolume openImage
  simp only [if_true, Res.ok_bind, h.readVolume]
  cases readVolume b with
  | ok vol => simp only [Res.ok_bind, Res.pure_eq, h.walkPath, Props.printSubdir_agree h]
  | err e => rfl
  | panic => rfl
  | hang => rfl

theorem lsScanInit_agree {a b : Dev} (h : AgreeLow a b) (path : Str) (fuel : Nat) :
    lsScanInit a path fuel = lsScanInit b path fuel ∧
    ∀ s, lsScanInit b path fuel = .ok s → s.endSector * 2048 ≤ 2 ^ 44 := by
  unfold lsScanInit
  simp only [h.readVolume, h.walkPath, (scanInit_agree h _).1, true_and]
  intro s hs
  obtain ⟨_, _, hs⟩ := Res.bind_eq_ok.1 hs
  obtain ⟨_, _, hs⟩ := Res.bind_eq_ok.1 hs
  exact (scanInit_agree h _).2 _ hs

theorem lsOn_agree {H : Type} (r : Reader H) {a b : Dev} (h : AgreeLow a b) (path : Str) (scan : Bool) :
    lsOn r a path scan = lsOn r b path scan := by
  unfold lsOn
  obtain ⟨h1, h2⟩ := lsScanInit_agree h path r.fuel
  rw [h1, cmdLs_agree h]
  cases hi : lsScanInit b path r.fuel with
  | ok s => simp only [lsScanLoop_agree h _ _ (h2 _ hi)]
  | err e => rfl
  | panic => rfl
  | hang => rfl

/-- Printing the names one by one comes to the same as reading all entries first, except for what is printed before a
failure. -/
theorem lsScanLoop_drain (dev : Dev) : ∀ (fuel : Nat) (s : Scan) (acc : List DirEnt),
    (lsScanLoop dev fuel s (acc.reverse.map DirEnt.nameStr)).2 = (scanDrain dev fuel s acc >>= fun _ => .ok ()) ∧
    ∀ l, scanDrain dev fuel s acc = .ok l →
      (lsScanLoop dev fuel s (acc.reverse.map DirEnt.nameStr)).1 = l.map DirEnt.nameStr := by
  intro fuel
  induction fuel with
  | zero => intro s acc; exact ⟨rfl, nofun⟩
  | succ fuel ih =>
    intro s acc
    simp only [lsScanLoop, scanDrain]
    cases s.next dev (fuel + 1) with
    | ok r =>
      obtain ⟨d, s'⟩ := r
      cases d with
      | none => exact ⟨rfl, fun l hl => by cases hl; rfl⟩
      | some d =>
        have := ih s' (d :: acc)
        simp only [List.reverse_cons, List.map_append, List.map_cons, List.map_nil] at this
        exact this
    | err e => exact ⟨rfl, nofun⟩
    | panic => exact ⟨rfl, nofun⟩
    | hang => exact ⟨rfl, nofun⟩

theorem cmdLs_scan (dev : Dev) (path : Str) (fuel : Nat) :
    cmdLs true dev path true fuel =
      (lsScanInit dev path fuel >>= fun s => scanDrain dev fuel s [] >>= fun ds => .ok (ds.map DirEnt.nameStr)) := by
  unfold cmdLs openVolume openImage lsScanInit scanAll
  simp only [if_true, Res.ok_bind, Res.pure_eq, bind_assoc]

/-- `ls` ends as `cmdLs` does, and prints its lines if that succeeds. -/
theorem lsOn_eq {H : Type} (r : Reader H) (dev : Dev) (path : Str) (scan : Bool) :
    (lsOn r dev path scan).outcome = (cmdLs true dev path scan r.fuel >>= fun _ => .ok ()) ∧
    ∀ l, cmdLs true dev path scan r.fuel = .ok l → lsOn r dev path scan = ⟨l.map .text, .ok ()⟩ := by
  cases scan with
  | false =>
    unfold lsOn
    simp only [Bool.false_eq_true, if_false]
    cases cmdLs true dev path false r.fuel with
    | ok l => exact ⟨rfl, fun l' hl => by cases hl; rfl⟩
    | err e => exact ⟨rfl, nofun⟩
    | panic => exact ⟨rfl, nofun⟩
    | hang => exact ⟨rfl, nofun⟩
  | true =>
    unfold lsOn
    rw [cmdLs_scan]
    simp only [if_true]
    cases lsScanInit dev path r.fuel with
    | ok s =>
      simp only [Res.ok_bind]
      obtain ⟨h1, h2⟩ := lsScanLoop_drain dev r.fuel s []
      simp only [List.reverse_nil, List.map_nil] at h1 h2
      rw [h1]
      cases hd : scanDrain dev r.fuel s [] with
      | ok ds =>
        refine ⟨rfl, fun l hl => ?_⟩
        cases hl
        rw [h2 _ hd]; rfl
      | err e => exact ⟨rfl, nofun⟩
      | panic => exact ⟨rfl, nofun⟩
      | hang => exact ⟨rfl, nofun⟩
    | err e => exact ⟨rfl, nofun⟩
    | panic => exact ⟨rfl, nofun⟩
    | hang => exact ⟨rfl, nofun⟩

theorem readOn_agree {H : Type} (r : Reader H) {a b : Dev} (h : AgreeLow a b) (image : Str) (cmd : ReadCmd) :
    readOn r a image cmd = readOn r b image cmd := by
  cases cmd with
  | ls path scan => simp only [readOn, lsOn_agree r h]
  | tree => simp only [readOn, cmdTree_agree h]
  | info path => simp only [readOn, cmdInfo_agree h]
  | md5 path => simp only [readOn, md5On, h.readVolume, cmdMd5_agree r.hash h]
  | checksum => simp only [readOn, checksumOn, h.readVolume, checksum_agree r.hash h]

end Xdvdfs
