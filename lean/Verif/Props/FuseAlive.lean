import Verif.Proof.FuseAlive
import Verif.Props.Daemon

/-!
# A mounted image keeps answering
-/

namespace Xdvdfs.Props
open Spec

/-! ## C113: every request is answered -/

/-- C113 for the images this program makes: after the mount of a packed image every history of requests is answered, however
long it is, whatever the requests ask for. -/
theorem C113_packed_answers {fs : SourceFs} {content : Path → Bytes} (hb : Bounded fs) (hf : FaithfulTo fs content)
    {faults : Faults} {pfuel : Nat} {img0 : Bytes} {s' : PackState ImgFile}
    (hpack : createImage (fileEnv fs faults) pfuel ⟨⟨img0, []⟩, []⟩ = (.ok (), s')) {fuel : Nat}
    (hfuel : SearchBudget fs.readDir fuel) (hfuel' : ∀ p l, DirOf fs.readDir p → fs.readDir p = .ok l → l.length < fuel) :
    ∃ m, mountImage (fileDev s'.dev.img) fuel = .ok (m, .new) ∧
      ∀ ops, (∀ op ∈ ops, KernelRequest op) → ∃ rs c, fuseRun m .new ops = .ok (rs, c) ∧ rs.length = ops.length := by
  obtain ⟨M, Loc, l0, hP⟩ := pack_packed hb hf hpack
  have hm := packed_mounts hP fuel
  refine ⟨_, hm, ?_⟩
  have hI := hP.image.agree (offsetDev_zero _)
  have hs := (mount_sane hm).1
  have key : ∀ (ops : List FuseOp) (c : FuseCache), Counts (offsetDev (fileDev s'.dev.img) 0) c → AllKnown Loc c →
      (∀ op ∈ ops, KernelRequest op) →
      ∃ rs c', fuseRun ⟨offsetDev (fileDev s'.dev.img) 0, regionOf l0, fuel⟩ c ops = .ok (rs, c') ∧ rs.length = ops.length := by
    intro ops
    induction ops with
    | nil => intro c _ _ _; exact ⟨[], c, rfl, rfl⟩
    | cons op ops ih =>
      intro c hc hk hops
      obtain ⟨r, c1, g1, g2⟩ := img_step (m := ⟨offsetDev (fileDev s'.dev.img) 0, regionOf l0, fuel⟩) hI hP.root hP.rootDir
        rfl hs hfuel hfuel' hc hk (hops op List.mem_cons_self)
      obtain ⟨rs, c2, g3, g4⟩ := ih c1 (step_counts (m := ⟨offsetDev (fileDev s'.dev.img) 0, regionOf l0, fuel⟩) hc g1) g2
        (fun op hop => hops op (List.mem_cons_of_mem _ hop))
      refine ⟨r :: rs, c2, ?_, by simp [g4]⟩
      unfold fuseRun
      rw [g1, Res.ok_bind]
      simp only
      rw [g3]
      rfl
  exact fun ops hops => key ops .new (.new _) (fun i d h => by simp [FuseCache.new] at h) hops

/-- The sample tree. -/
example (img0 : Bytes) : ∃ s' m, createImage (fileEnv sampleFs' (fun _ => none)) 2 ⟨⟨img0, []⟩, []⟩ = (.ok (), s') ∧
    mountImage (fileDev s'.dev.img) 3 = .ok (m, .new) ∧ ∃ rs c, fuseRun m .new
      [.lookup 1 (some ['A']), .readdir 2 0 noLimit, .read 3 1 2, .lookup 7 none, .readdir 1 (-5) noLimit] = .ok (rs, c) := by
  obtain ⟨s', h⟩ := sample_packs img0
  obtain ⟨m, h1, h2⟩ := C113_packed_answers sample'_bounded sample'_faithful h sample_budget
    (fun p l a b => Nat.lt_of_succ_le (sample_scanFuel p l a b))
  obtain ⟨rs, c, h3, _⟩ := h2 [.lookup 1 (some ['A']), .readdir 2 0 noLimit, .read 3 1 2, .lookup 7 none,
    .readdir 1 (-5) noLimit] (by
      intro op hop parent n h
      subst h
      simp at hop
      rw [hop.2]; decide)
  exact ⟨s', m, h, h1, rs, c, h3⟩

theorem alone_parent {j : MountJob} (hf : j.fork = false) {es : List MountEvent} {s : MountState} (h : MountRun j es s) :
    s.parent = .absent := by
  refine runMount_inv (P := fun s => s.parent = .absent) ?_ ?_ h
  · intro s e s1 _ hp hs
    cases hs <;> simp_all [ParentAt.alive]
  · unfold MountJob.start
    rw [if_neg (by simp [hf])]

theorem stuck_stays {j : MountJob} {es : List MountEvent} {s s' : MountState} (hs : s.server = .stuck ∨ s.server = .killed)
    (h : runMount j es s = some s') : s'.server = .stuck ∨ s'.server = .killed := by
  refine runMount_inv (P := fun s => s.server = .stuck ∨ s.server = .killed) ?_ hs h
  intro s e s1 _ hp hs
  cases hs <;> simp_all

/-- C113 for the program: mounting a packed image.  If the system lets it mount, nobody kills a process and the requests are
made by the kernel, then the serving process never gets stuck, and ends only after the image was unmounted, with status 0. -/
theorem C113_packed_serves {fs : SourceFs} {content : Path → Bytes} (hb : Bounded fs) (hf : FaithfulTo fs content)
    {faults : Faults} {pfuel : Nat} {img0 : Bytes} {s' : PackState ImgFile}
    (hpack : createImage (fileEnv fs faults) pfuel ⟨⟨img0, []⟩, []⟩ = (.ok (), s')) {fuel : Nat}
    (hfuel : SearchBudget fs.readDir fuel) (hfuel' : ∀ p l, DirOf fs.readDir p → fs.readDir p = .ok l → l.length < fuel)
    {fork : Bool} {es : List MountEvent} {s : MountState} (h : MountRun ⟨s'.dev.img, fork, true, true, fuel⟩ es s)
    (hk : NoKill es) (hops : ∀ op ∈ requests es, KernelRequest op) :
    s.server ≠ .stuck ∧ ∀ n, s.server = .exited n → n = 0 ∧ .unmount ∈ es := by
  obtain ⟨m0, hm0, hans⟩ := C113_packed_answers hb hf hpack hfuel hfuel'
  have hcan : CanOpen ⟨s'.dev.img, fork, true, true, fuel⟩ := ⟨rfl, m0, _, hm0⟩
  have key : (fork = true → s.parent ≠ .absent ∧ s.parent ≠ .killed ∧ ∀ n, s.parent = .exited n → ¬ NotReported s) ∧
      s.server ≠ .stuck ∧ (∀ n, s.server ≠ .failing n) ∧
      ∀ n, s.server = .leaving n ∨ s.server = .exited n → n = 0 ∧ .unmount ∈ es := by
    refine (mountRun_trace (j := ⟨s'.dev.img, fork, true, true, fuel⟩) (P := fun es s => NoKill es →
      (∀ op ∈ requests es, KernelRequest op) →
      (fork = true → s.parent ≠ .absent ∧ s.parent ≠ .killed ∧ ∀ n, s.parent = .exited n → ¬ NotReported s) ∧
      s.server ≠ .stuck ∧ (∀ n, s.server ≠ .failing n) ∧
      ∀ n, s.server = .leaving n ∨ s.server = .exited n → n = 0 ∧ .unmount ∈ es) ?_ ?_ h) hk hops
    · intro _ _
      unfold MountJob.start
      split
      · exact ⟨fun _ => ⟨nofun, nofun, nofun⟩, nofun, nofun, by rintro n (h | h) <;> cases h⟩
      · rename_i hx
        exact ⟨fun hy => absurd hy hx, nofun, nofun, by rintro n (h | h) <;> cases h⟩
    · intro es s e s1 hr hp hs hr1 hk1 hops1
      have hke : NoKill es := ⟨fun h => hk1.1 (List.mem_append_left _ h), fun h => hk1.2 (List.mem_append_left _ h)⟩
      have hq : requests (es ++ [e]) = requests es ++ requests [e] := List.filterMap_append
      have hope : ∀ op ∈ requests es, KernelRequest op := fun op ho => hops1 op (by rw [hq]; exact List.mem_append_left _ ho)
      obtain ⟨h1, h2, h3, h4⟩ := hp hke hope
      have hpar : fork = true → s1.parent ≠ .absent ∧ s1.parent ≠ .killed ∧ ∀ n, s1.parent = .exited n → ¬ NotReported s1 := by
        intro hfk
        have hF := forking_run (j := ⟨s'.dev.img, fork, true, true, fuel⟩) hfk hr1
        refine ⟨hF.notAlone, ?_, hF.ended⟩
        have := (h1 hfk).2.1
        cases hs with
        | killP _ => exact absurd (by simp) hk1.1
        | _ => first | exact this | nofun
      refine ⟨hpar, ?_⟩
      -- no request of the kernel kills the program or keeps it busy
      have hstep : ∀ p k m c op, s = ⟨p, .serving m c, k⟩ → e = .request op → ∃ r c', fuseStep m c op = .ok (r, c') := by
        intro p k m c op hse hee
        obtain ⟨e1, rs, e2⟩ := C112_serves_image hr (by rw [hse])
        rw [show mountImage (fileDev s'.dev.img) fuel = .ok (m0, .new) from hm0] at e1
        cases e1
        obtain ⟨rs', c', e3, _⟩ := hans (requests es ++ [op]) (by
          intro o ho
          rw [List.mem_append, List.mem_singleton] at ho
          rcases ho with ho | rfl
          · exact hope o ho
          · exact hops1 _ (by rw [hq, hee]; exact List.mem_append_right _ (by simp [requests])))
        obtain ⟨rs1, c1, rs2, f1, f2, _⟩ := fuseRun_append.1 e3
        rw [e2] at f1
        cases f1
        unfold fuseRun at f2
        obtain ⟨⟨r, c2⟩, f3, _⟩ := Res.bind_eq_ok.1 f2
        exact ⟨r, c2, f3⟩
      have hmore : ∀ n, (s.server = .leaving n ∨ s.server = .exited n) → n = 0 ∧ .unmount ∈ es ++ [e] := fun n hx =>
        ⟨(h4 n hx).1, List.mem_append_left _ (h4 n hx).2⟩
      cases hs with
      | sFail _ _ hx => exact absurd hcan hx
      | sBroken hx hy =>
        exfalso
        cases fork with
        | true =>
          obtain ⟨a1, a2, a3⟩ := h1 rfl
          rename_i p k m c
          cases p with
          | absent => exact a1 rfl
          | killed => exact a2 rfl
          | exited n => exact a3 n rfl (.inr (.inr (.inl ⟨_, _, rfl⟩)))
          | forked => simp [MountState.readable] at hy
          | waiting => simp [MountState.readable] at hy
        | false =>
          exact hx (alone_parent rfl hr)
      | sNoMount hx => cases hx
      | sExit => refine ⟨nofun, nofun, ?_⟩; rintro n (hx | hx) <;> cases hx; exact hmore _ (.inl rfl)
      | rPanic hx => obtain ⟨r, c', hy⟩ := hstep _ _ _ _ _ rfl rfl; rw [hx] at hy; cases hy
      | rHang hx => obtain ⟨r, c', hy⟩ := hstep _ _ _ _ _ rfl rfl; rw [hx] at hy; cases hy
      | unmount => refine ⟨nofun, nofun, ?_⟩; rintro n (hx | hx) <;> cases hx; exact ⟨rfl, by simp⟩
      | killS _ => exact absurd (by simp) hk1.2
      | fAlone => exact absurd rfl (h3 _)
      | fTell _ _ => exact absurd rfl (h3 _)
      | fBroken _ _ => exact absurd rfl (h3 _)
      | pFork => exact ⟨h2, h3, hmore⟩
      | pRead => exact ⟨h2, h3, hmore⟩
      | pEof => exact ⟨h2, h3, hmore⟩
      | killP => exact ⟨h2, h3, hmore⟩
      | _ => exact ⟨nofun, nofun, by rintro n (hx | hx) <;> cases hx⟩
  exact ⟨key.2.1, fun n hn => key.2.2.2 n (.inr hn)⟩

/-- The sample image: mounted, asked, unmounted. -/
example (img0 : Bytes) : ∃ s' es, createImage (fileEnv sampleFs' (fun _ => none)) 2 ⟨⟨img0, []⟩, []⟩ = (.ok (), s') ∧
    NoKill es ∧ (∀ op ∈ requests es, KernelRequest op) ∧ requests es ≠ [] ∧
    ∃ s, MountRun ⟨s'.dev.img, true, true, true, 3⟩ es s ∧ s.server = .exited 0 := by
  obtain ⟨s', h⟩ := sample_packs img0
  obtain ⟨m, h1, h2⟩ := C113_packed_answers sample'_bounded sample'_faithful h sample_budget
    (fun p l a b => Nat.lt_of_succ_le (sample_scanFuel p l a b))
  have hr := opened_run (j := ⟨s'.dev.img, true, true, true, 3⟩) rfl rfl rfl h1
  refine ⟨s', ([.server, .server, .server, .server, .parent, .parent] : List MountEvent) ++ [.request (.getattr 1), .unmount, .server], h, ?_, ?_, ?_,
    _, runMount_append.2 ⟨_, hr, (rfl : runMount _ [.request (.getattr 1), .unmount, .server] _ = _)⟩, rfl⟩
  · simp [NoKill]
  · intro op hop parent n hx
    subst hx
    simp [requests] at hop
  · simp [requests]

/-- C113 (partial: images from elsewhere).  Missing: lookups and listings can fail to return, and listings can kill the
program, see `C113_hostile_false`.  For every image that can be mounted, after every history of requests: the numbers given to
entries have not run out; requests other than lookups and listings are answered; and a request of the kernel that kills the
program is a listing of a table that cannot be scanned without a panic (C12 says which). -/
theorem C113_any_image_partial {img : Bytes} {fuel : Nat} {m : Mount} {c0 : FuseCache}
    (hm : mountImage (fileDev img) fuel = .ok (m, c0)) {ops : List FuseOp} {rs : List FuseReply} {c : FuseCache}
    (hrun : fuseRun m .new ops = .ok (rs, c)) (op : FuseOp) (hop : KernelRequest op) :
    c.next ≤ 2 + 2 ^ 45 ∧
    ((∀ parent n, op ≠ .lookup parent n) → (∀ ino o full, op ≠ .readdir ino o full) → ∃ r, fuseStep m c op = .ok (r, c)) ∧
    (fuseStep m c op = .panic → ∃ ino o full tab, op = .readdir ino o full ∧ c.table m.root ino = some tab ∧
      ∃ f, scanAll m.dev tab f = .panic) := by
  have hd := (mount_sane hm).1
  have hc := run_counts (.new _) hrun
  refine ⟨hc.bound, ?_, ?_⟩
  · intro h1 h2
    cases op with
    | lookup parent n => exact absurd rfl (h1 _ _)
    | readdir ino o full => exact absurd rfl (h2 _ _ _)
    | getattr ino => exact ⟨_, rfl⟩
    | «open» ino flags => exact ⟨_, rfl⟩
    | opendir ino flags => exact ⟨_, rfl⟩
    | access ino => exact ⟨_, rfl⟩
    | read ino offset size =>
      simp only [fuseStep]
      suffices hx : ∃ r, fuseRead m c ino offset size = .ok r by
        obtain ⟨r, hx⟩ := hx
        rw [hx, Res.ok_bind]
        exact ⟨_, rfl⟩
      unfold fuseRead
      split
      · exact ⟨_, rfl⟩
      · exact ⟨_, rfl⟩
      · rename_i d _
        split
        · exact ⟨_, rfl⟩
        · obtain ⟨g1, g2⟩ := readData_no_panic hd d.node.dirent size offset.toNat
          cases hx : readDataOffset m.dev d.node.dirent size offset.toNat with
          | ok b => exact ⟨_, rfl⟩
          | err e => exact ⟨_, rfl⟩
          | panic => exact absurd hx g1
          | hang => exact absurd hx g2
  · intro h
    rcases step_panic hd hc h with hx | ⟨parent, n, h1, h2⟩
    · exact hx
    · exact absurd h2 (hop _ _ h1)

set_option maxRecDepth 20000 in
theorem hand_mounts {table : Bytes} (fuel : Nat)
    (hv : readVolume (handDev 65536 (handImage table)) = .ok (VolDesc.new ⟨33, 2048⟩)) :
    mountImage (fileDev (List.replicate 65536 0 ++ handImage table)) fuel =
      .ok (⟨offsetDev (fileDev (List.replicate 65536 0 ++ handImage table)) 0, ⟨33, 2048⟩, fuel⟩, .new) := by
  have hv' : readVolume (fileDev (List.replicate 65536 0 ++ handImage table)) = .ok (VolDesc.new ⟨33, 2048⟩) := by
    rw [handDev_eq]; exact hv
  unfold mountImage
  rw [offsetNew_zero hv']
  simp only [Res.ok_bind]
  rw [(offsetDev_zero _).readVolume, hv']
  rfl

/-- An image whose only table cannot be scanned, and one in which a search does not end. -/
def panicImage : Bytes := List.replicate 65536 0 ++ handImage crossingSector
def loopImage : Bytes := List.replicate 65536 0 ++ handImage cyclicImage

set_option maxRecDepth 20000 in
theorem loop_find : ∀ fuel, findDirent (offsetDev (fileDev loopImage) 0) ⟨33, 2048⟩ ['a'] fuel = .hang := by
  have hdev : fileDev loopImage = handDev 65536 (handImage cyclicImage) := handDev_eq _ _
  rw [hdev]
  have loop (fuel : Nat) : ∀ top : Nat, top = 67584 ∨ top = 67600 →
      findLoop (offsetDev (handDev 65536 (handImage cyclicImage)) 0) ⟨33, 2048⟩ ['a'] fuel top = .hang := by
    induction fuel with
    | zero => intros; rfl
    | succ fuel ih =>
      intro top ht
      have h2 : readDirent (offsetDev (handDev 65536 (handImage cyclicImage)) 0) top =
          .ok (some { node := { left := 4, right := 0, dirent := ⟨⟨1, 1⟩, 0x20, 1⟩ }, name := [98],
                      offset := top }) := by rcases ht with rfl | rfl <;> decide +kernel
      have h3 : cmpIgnoreCase ['a'] (DirEnt.nameStr { node := { left := 4, right := 0, dirent := ⟨⟨1, 1⟩, 0x20, 1⟩ }, name := [98], offset := top }) = .lt := by
        show cmpIgnoreCase ['a'] (decodeName [98]) = .lt
        decide
      unfold findLoop
      rw [h2, Res.ok_bind]
      simp only [Res.ofOption]
      rw [Res.ok_bind]
      rw [h3]
      have h4 : Region.offset ⟨33, 2048⟩ (4 * (4 : UInt16).toNat) = .ok 67600 := by decide
      simp only [Res.pure_eq, Res.ok_bind]
      rw [if_neg (by decide), h4, Res.ok_bind]
      exact ih _ (.inr rfl)
  intro fuel
  unfold findDirent
  rw [if_neg (by decide)]
  have h0 : Region.offset ⟨33, 2048⟩ 0 = .ok 67584 := by decide
  rw [h0, Res.ok_bind]
  exact loop fuel _ (.inl rfl)

set_option maxRecDepth 20000 in
/-- C113 is false of images from elsewhere: there is an image that can be mounted, and listing its root kills the program;
and there is an image that can be mounted, and the program never answers a lookup in its root, nor anything after it. -/
theorem C113_hostile_false (fork : Bool) :
    (∃ es s, MountRun ⟨panicImage, fork, true, true, 129⟩ es s ∧ NoKill es ∧ (∀ op ∈ requests es, KernelRequest op) ∧
      requests es = [.readdir 1 0 noLimit] ∧ s.server = .exited panicStatus) ∧
    ∀ fuel, ∃ es s, MountRun ⟨loopImage, fork, true, true, fuel⟩ es s ∧ NoKill es ∧
      (∀ op ∈ requests es, KernelRequest op) ∧ requests es = [.lookup 1 (some ['a'])] ∧ s.server = .stuck ∧
      ∀ es' s', runMount ⟨loopImage, fork, true, true, fuel⟩ es' s = some s' → s'.server = .stuck ∨ s'.server = .killed := by
  have start : ∀ (img : Bytes) (fuel : Nat) (m : Mount), mountImage (fileDev img) fuel = .ok (m, .new) →
      ∃ es s, MountRun ⟨img, fork, true, true, fuel⟩ es s ∧ NoKill es ∧ requests es = [] ∧ s.server = .serving m .new := by
    intro img fuel m hm
    cases fork with
    | true => exact ⟨_, _, opened_run (j := ⟨img, true, true, true, fuel⟩) rfl rfl rfl hm, by simp [NoKill], rfl, rfl⟩
    | false => exact ⟨_, _, alone_run (j := ⟨img, false, true, true, fuel⟩) rfl rfl rfl hm, by simp [NoKill], rfl, rfl⟩
  refine ⟨?_, ?_⟩
  · obtain ⟨es, ⟨p, sv, k⟩, h1, h2, h3, h4⟩ := start panicImage 129 _ (hand_mounts (table := crossingSector) 129 (by decide +kernel))
    simp only at h4
    subst h4
    have hstep : fuseStep ⟨offsetDev (fileDev (List.replicate 65536 0 ++ handImage crossingSector)) 0, ⟨33, 2048⟩, 129⟩ .new
        (.readdir 1 0 noLimit) = .panic := by
      rw [handDev_eq]; decide +kernel
    have hreq : requests (es ++ [.request (.readdir 1 0 noLimit), .server]) = [.readdir 1 0 noLimit] := by
      rw [show requests (es ++ [.request (.readdir 1 0 noLimit), .server]) = requests es ++ _ from List.filterMap_append, h3]
      rfl
    refine ⟨es ++ [.request (.readdir 1 0 noLimit), .server], ⟨p, .exited panicStatus, k⟩,
      runMount_append.2 ⟨_, h1, ?_⟩, ?_, ?_, hreq, rfl⟩
    · simp only [runMount, mountStep, requestStep, hstep, serverStep]
    · exact ⟨by simp [h2.1], by simp [h2.2]⟩
    · rw [hreq]; intro op hop parent n hx; subst hx; simp at hop
  · intro fuel
    obtain ⟨es, ⟨p, sv, k⟩, h1, h2, h3, h4⟩ := start loopImage fuel _ (hand_mounts (table := cyclicImage) fuel (by decide +kernel))
    simp only at h4
    subst h4
    have hstep : fuseStep ⟨offsetDev (fileDev (List.replicate 65536 0 ++ handImage cyclicImage)) 0, ⟨33, 2048⟩, fuel⟩ .new
        (.lookup 1 (some ['a'])) = .hang := by
      simp only [fuseStep, fuseLookup, FuseCache.table, if_true]
      rw [walkPath_plain _ _ _ (by simp) (by decide)]
      have := loop_find fuel
      unfold loopImage at this
      rw [this]
    have hreq : requests (es ++ [.request (.lookup 1 (some ['a']))]) = [.lookup 1 (some ['a'])] := by
      rw [show requests (es ++ [.request (.lookup 1 (some ['a']))]) = requests es ++ _ from List.filterMap_append, h3]
      rfl
    refine ⟨es ++ [.request (.lookup 1 (some ['a']))], ⟨p, .stuck, k⟩,
      runMount_append.2 ⟨_, h1, ?_⟩, ?_, ?_, hreq, rfl, ?_⟩
    · simp only [runMount, mountStep, requestStep, hstep]
    · exact ⟨by simp [h2.1], by simp [h2.2]⟩
    · rw [hreq]
      intro op hop parent n hx
      subst hx
      simp at hop
      rw [hop.2]; decide
    · intro es' s' hr
      exact stuck_stays (.inl rfl) hr

/-- The hypotheses of the partial theorem: an image with two files, after two requests. -/
example : ∃ m c0, mountImage (fileDev (List.replicate 65536 0 ++ (handImage twoTable ++ [1, 2, 3, 4, 5, 6]))) 4 = .ok (m, c0) ∧
    ∃ rs c, fuseRun m .new [.getattr 1, .access 1] = .ok (rs, c) ∧ KernelRequest (.readdir 1 0 noLimit) :=
  ⟨_, _, two_mounts, _, _, rfl, by intro parent n h; cases h⟩

end Xdvdfs.Props
