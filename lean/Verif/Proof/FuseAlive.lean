import Verif.Proof.FuseImg
import Verif.Proof.Show
import Verif.Props.Reader

/-!
# Answering requests: every entry of an image comes from one place in it

An entry that a search finds is determined by its position in the image, and an entry that a scan finds by its sector and
its position in it.  So there are less than `2 ^ 45` of them, and the numbers given to them never run out.
-/

namespace Xdvdfs
open Spec

/-- The entry that a scan finds at a position of a sector. -/
def scannedAt (buf : Bytes) (pos : Nat) : Option DirEnt :=
  (deserDirentNode (slice buf pos 14)).map
    (fun node => { node, name := slice buf (pos + 14) node.dirent.nameLen.toNat, offset := pos })

/-- The entry with a key: even keys are positions in the image, odd keys are positions of a scan. -/
def entryAt (dev : Dev) (k : Nat) : Option DirEnt :=
  if k % 2 = 0 then
    match readDirent dev (k / 2) with
    | .ok d => d
    | _ => none
  else
    match dev.read (k / 2 / 2048 * 2048) 2048 with
    | .ok buf => scannedAt buf (k / 2 % 2048)
    | _ => none

/-- An entry that can be read from the image. -/
def Exists (dev : Dev) (d : DirEnt) : Prop := ∃ k, k < 2 ^ 45 ∧ entryAt dev k = some d

theorem findLoop_exists {dev : Dev} {tab : Region} {name : Str} : ∀ {f off : Nat} {d : DirEnt}, off < 2 ^ 44 →
    findLoop dev tab name f off = .ok d → Exists dev d := by
  intro f
  induction f with
  | zero => intro off d _ h; cases h
  | succ f ih =>
    intro off d ho h
    unfold findLoop at h
    obtain ⟨d?, h1, h⟩ := Res.bind_eq_ok.1 h
    obtain ⟨d1, h2, h⟩ := Res.bind_eq_ok.1 h
    obtain ⟨nx, h3, h⟩ := Res.bind_eq_ok.1 h
    cases d? with
    | none => cases h2
    | some d0 =>
      cases h2
      cases nx with
      | none =>
        cases h
        refine ⟨2 * off, by omega, ?_⟩
        unfold entryAt
        rw [if_pos (by omega), show 2 * off / 2 = off by omega, h1]
      | some nx =>
        simp only at h
        split at h
        · cases h
        · obtain ⟨off', h4, h⟩ := Res.bind_eq_ok.1 h
          have := Region.offset_lt h4
          exact ih (by omega) h

theorem findDirent_exists {dev : Dev} {tab : Region} {name : Str} {f : Nat} {d : DirEnt}
    (h : findDirent dev tab name f = .ok d) : Exists dev d := by
  unfold findDirent at h
  split at h
  · cases h
  · obtain ⟨off, h1, h⟩ := Res.bind_eq_ok.1 h
    have := Region.offset_lt h1
    exact findLoop_exists (by omega) h

theorem walkSegments_exists {dev : Dev} {f : Nat} : ∀ {segs : List Str} {tab : Region} {d : DirEnt},
    walkSegments dev f tab segs = .ok d → Exists dev d := by
  intro segs
  induction segs with
  | nil => intro tab d h; cases h
  | cons s segs ih =>
    intro tab d h
    unfold walkSegments at h
    obtain ⟨d1, h1, h⟩ := Res.bind_eq_ok.1 h
    split at h
    · cases h; exact findDirent_exists h1
    · obtain ⟨tab', _, h⟩ := Res.bind_eq_ok.1 h
      exact ih h

theorem walkPath_exists {dev : Dev} {f : Nat} {path : Str} {tab : Region} {d : DirEnt}
    (h : walkPath dev tab path f = .ok d) : Exists dev d := by
  unfold walkPath at h
  split at h
  · cases h
  · exact walkSegments_exists h

/-! ## Scans -/

/-- The buffer of a scan holds the sector it is at. -/
def ScanHolds (dev : Dev) (s : Scan) : Prop :=
  s.endSector ≤ 2 ^ 33 ∧ (s.sector < s.endSector → dev.read (s.sector * 2048) 2048 = .ok s.buf)

theorem scanInit_holds {dev : Dev} {tab : Region} {s : Scan} (h : scanInit dev tab = .ok s) : ScanHolds dev s := by
  unfold scanInit at h
  split at h
  · cases h; exact ⟨by simp, nofun⟩
  · obtain ⟨off, h1, h⟩ := Res.bind_eq_ok.1 h
    obtain ⟨buf, h2, h⟩ := Res.bind_eq_ok.1 h
    cases h
    have k1 := tab.sector.toNat_lt
    have k2 := tab.size.toNat_lt
    obtain ⟨_, rfl⟩ := Region.offset_ok h1
    refine ⟨by simp only; omega, fun _ => ?_⟩
    simp only
    rw [Nat.add_zero, Nat.mul_comm] at h2
    exact h2

theorem nextSector_holds {dev : Dev} {s s' : Scan} (he : s.endSector ≤ 2 ^ 33) (h : s.nextSector dev = .ok s') :
    ScanHolds dev s' := by
  unfold Scan.nextSector at h
  simp only at h
  split at h
  · cases h; exact ⟨he, fun hx => by simp only at hx; omega⟩
  · obtain ⟨buf, h1, h⟩ := Res.bind_eq_ok.1 h
    cases h
    exact ⟨he, fun _ => h1⟩

theorem nextLoop_holds {dev : Dev} : ∀ {f : Nat} {s s' : Scan} {d? : Option DirEnt}, ScanHolds dev s → s.sector < s.endSector →
    Scan.nextLoop dev f s = .ok (d?, s') → ScanHolds dev s' ∧ ∀ d, d? = some d → Exists dev d := by
  intro f
  induction f with
  | zero => intro s s' d? _ _ h; cases h
  | succ f ih =>
    intro s s' d? hs hlt h
    unfold Scan.nextLoop at h
    obtain ⟨x, h1, h⟩ := Res.bind_eq_ok.1 h
    unfold Scan.step at h1
    obtain ⟨_, ha, h1⟩ := Res.bind_eq_ok.1 h1
    have hpos : s.offset + 14 < 2048 := by
      unfold Res.assert at ha
      split at ha
      · rename_i hx; simpa using hx
      · cases ha
    simp only at h1
    cases hn : deserDirentNode (slice s.buf s.offset 14) with
    | none =>
      rw [hn] at h1
      simp only at h1
      split at h1
      · obtain ⟨s1, h2, h1⟩ := Res.bind_eq_ok.1 h1
        cases h1
        refine ih (nextSector_holds hs.1 h2) ?_ h
        unfold Scan.nextSector at h2
        simp only at h2
        split at h2
        · omega
        · obtain ⟨_, _, h2⟩ := Res.bind_eq_ok.1 h2
          cases h2; simp only; omega
      · cases h1; cases h
        exact ⟨hs, nofun⟩
    | some node =>
      rw [hn] at h1
      simp only at h1
      obtain ⟨_, _, h1⟩ := Res.bind_eq_ok.1 h1
      have hex : Exists dev { node, name := slice s.buf (s.offset + 14) node.dirent.nameLen.toNat, offset := s.offset } := by
        have := hs.1
        refine ⟨2 * (2048 * s.sector + s.offset) + 1, by omega, ?_⟩
        unfold entryAt
        rw [if_neg (by omega), show (2 * (2048 * s.sector + s.offset) + 1) / 2 / 2048 = s.sector by omega,
          show (2 * (2048 * s.sector + s.offset) + 1) / 2 % 2048 = s.offset by omega, hs.2 hlt]
        simp only [scannedAt, hn, Option.map_some]
      split at h1
      · obtain ⟨s1, h2, h1⟩ := Res.bind_eq_ok.1 h1
        cases h1; cases h
        exact ⟨nextSector_holds hs.1 h2, fun d hd => by cases hd; exact hex⟩
      · cases h1; cases h
        exact ⟨⟨hs.1, hs.2⟩, fun d hd => by cases hd; exact hex⟩

theorem next_holds {dev : Dev} {f : Nat} {s s' : Scan} {d? : Option DirEnt} (hs : ScanHolds dev s)
    (h : s.next dev f = .ok (d?, s')) : ScanHolds dev s' ∧ ∀ d, d? = some d → Exists dev d := by
  unfold Scan.next at h
  split at h
  · cases h; exact ⟨hs, nofun⟩
  · exact nextLoop_holds hs (by omega) h

theorem skip_holds {m : Mount} : ∀ {n idx : Nat} {s s' : Scan} {idx' : Nat}, ScanHolds m.dev s →
    skipRecords m n idx s = .ok (idx', s') → ScanHolds m.dev s' := by
  intro n
  induction n with
  | zero => intro idx s s' idx' hs h; cases h; exact hs
  | succ n ih =>
    intro idx s s' idx' hs h
    unfold skipRecords at h
    obtain ⟨⟨d?, s1⟩, h1, h⟩ := Res.bind_eq_ok.1 h
    have hs1 := (next_holds hs h1).1
    cases d? with
    | none => cases h; exact hs1
    | some d => exact ih hs1 h

/-! ## Numbers -/

/-- The counter counts entries of the image. -/
def Counts (dev : Dev) (c : FuseCache) : Prop :=
  ∃ keys : List Nat, keys.Nodup ∧ (∀ k ∈ keys, k < 2 ^ 45) ∧ c.next = 2 + keys.length ∧
    ∀ k ∈ keys, ∃ d, entryAt dev k = some d ∧ (c.byEntry.lookup d).isSome

theorem Counts.new (dev : Dev) : Counts dev .new := ⟨[], .nil, nofun, rfl, nofun⟩

theorem Counts.bound {dev : Dev} {c : FuseCache} (h : Counts dev c) : c.next ≤ 2 + 2 ^ 45 := by
  obtain ⟨keys, h1, h2, h3, _⟩ := h
  have := nodup_length (2 ^ 45) keys h1 h2
  omega

theorem Counts.assign {dev : Dev} {c : FuseCache} (h : Counts dev c) {d : DirEnt} (hd : Exists dev d) :
    ∃ i c', c.getOrAssign d = .ok (i, c') ∧ Counts dev c' := by
  have hb := h.bound
  obtain ⟨keys, h1, h2, h3, h4⟩ := h
  obtain ⟨k, hk, he⟩ := hd
  unfold FuseCache.getOrAssign
  cases hl : c.byEntry.lookup d with
  | some i => exact ⟨i, c, rfl, keys, h1, h2, h3, h4⟩
  | none =>
    simp only
    rw [if_pos (by omega)]
    refine ⟨_, _, rfl, k :: keys, ?_, ?_, ?_, ?_⟩
    · refine List.nodup_cons.2 ⟨fun hin => ?_, h1⟩
      obtain ⟨d', e1, e2⟩ := h4 k hin
      rw [he] at e1
      cases e1
      rw [hl] at e2
      cases e2
    · intro k' hk'
      rcases List.mem_cons.1 hk' with rfl | hk'
      · exact hk
      · exact h2 k' hk'
    · simp only [List.length_cons, h3]; omega
    · intro k' hk'
      rcases List.mem_cons.1 hk' with rfl | hk'
      · exact ⟨d, he, by simp⟩
      · obtain ⟨d', e1, e2⟩ := h4 k' hk'
        refine ⟨d', e1, ?_⟩
        simp only [List.lookup_cons]
        split
        · rfl
        · exact e2

/-- The entries still to come after `n` of them: the scan panics there. -/
inductive PanicsAt (m : Mount) : Scan → Prop
  | here {s} : s.next m.dev m.fuel = .panic → PanicsAt m s
  | later {s d s'} : s.next m.dev m.fuel = .ok (some d, s') → PanicsAt m s' → PanicsAt m s

theorem add_counts {m : Mount} {full : List DirRec → DirRec → Bool} : ∀ {f idx : Nat} {s : Scan} {recs : List DirRec}
    {c : FuseCache}, Counts m.dev c → ScanHolds m.dev s →
    (∀ r c', addRecords m full f idx s recs c = .ok (r, c') → Counts m.dev c') ∧
    (addRecords m full f idx s recs c = .panic → PanicsAt m s) := by
  intro f
  induction f with
  | zero => intro idx s recs c _ _; exact ⟨nofun, nofun⟩
  | succ f ih =>
    intro idx s recs c hc hs
    unfold addRecords
    cases hn : s.next m.dev m.fuel with
    | ok r =>
      obtain ⟨d?, s'⟩ := r
      obtain ⟨hs', hd⟩ := next_holds hs hn
      cases d? with
      | none => exact ⟨fun r c' h => by cases h; exact hc, nofun⟩
      | some d =>
        obtain ⟨i, c1, g1, g2⟩ := hc.assign (hd d rfl)
        simp only [g1, Res.ok_bind]
        split
        · exact ⟨fun r c' h => by cases h; exact g2, nofun⟩
        · obtain ⟨k1, k2⟩ := ih (idx := idx + 1) (recs := recs ++
            [{ ino := i, next := idx + 1, isDir := d.node.dirent.isDirectory, name := d.nameStr }]) g2 hs'
          exact ⟨k1, fun h => .later hn (k2 h)⟩
    | err e => exact ⟨fun r c' h => by cases h; exact hc, nofun⟩
    | panic => exact ⟨nofun, fun _ => .here hn⟩
    | hang => exact ⟨nofun, nofun⟩

theorem skip_panics {m : Mount} : ∀ {n idx : Nat} {s : Scan}, skipRecords m n idx s = .panic → PanicsAt m s := by
  intro n
  induction n with
  | zero => intro idx s h; cases h
  | succ n ih =>
    intro idx s h
    unfold skipRecords at h
    cases hn : s.next m.dev m.fuel with
    | ok r =>
      obtain ⟨d?, s'⟩ := r
      rw [hn, Res.ok_bind] at h
      cases d? with
      | none => cases h
      | some d => exact .later hn (ih h)
    | err e => rw [hn] at h; cases h
    | panic => exact .here hn
    | hang => rw [hn] at h; cases h

theorem skip_later {m : Mount} : ∀ {n idx : Nat} {s s' : Scan} {idx' : Nat}, skipRecords m n idx s = .ok (idx', s') →
    PanicsAt m s' → PanicsAt m s := by
  intro n
  induction n with
  | zero => intro idx s s' idx' h hp; cases h; exact hp
  | succ n ih =>
    intro idx s s' idx' h hp
    unfold skipRecords at h
    obtain ⟨⟨d?, s1⟩, h1, h⟩ := Res.bind_eq_ok.1 h
    cases d? with
    | none =>
      cases h
      -- at the end of the table the scan does not panic
      exfalso
      have h2 := next_end h1
      cases hp with
      | here hx => rw [h2] at hx; cases hx
      | later hx _ => rw [h2] at hx; cases hx
    | some d => exact .later h1 (ih h hp)

/-! ### Panics of a scan do not depend on the bound -/

theorem nextLoop_panic_mono {dev : Dev} : ∀ {f : Nat} {s : Scan}, Scan.nextLoop dev f s = .panic →
    ∀ f', f ≤ f' → Scan.nextLoop dev f' s = .panic := by
  intro f
  induction f with
  | zero => intro s h; cases h
  | succ f ih =>
    intro s h f' hf
    obtain ⟨g, rfl⟩ : ∃ g, f' = g + 1 := ⟨f' - 1, by omega⟩
    unfold Scan.nextLoop at h ⊢
    cases hs : s.step dev with
    | ok r =>
      rw [hs, Res.ok_bind] at h
      rw [Res.ok_bind]
      cases r with
      | inl s' => exact ih h g (by omega)
      | inr r => cases h
    | err e => rw [hs] at h; cases h
    | panic => rfl
    | hang => rw [hs] at h; cases h

theorem next_panic_mono {dev : Dev} {f : Nat} {s : Scan} (h : s.next dev f = .panic) {f' : Nat} (hf : f ≤ f') :
    s.next dev f' = .panic := by
  unfold Scan.next at h ⊢
  split at h
  · cases h
  · rename_i hx; rw [if_neg hx]; exact nextLoop_panic_mono h f' hf

theorem PanicsAt.drain {m : Mount} {s : Scan} (h : PanicsAt m s) : ∃ n, ∀ acc f, n ≤ f → scanDrain m.dev f s acc = .panic := by
  induction h with
  | here hn =>
    refine ⟨m.fuel + 1, fun acc f hf => ?_⟩
    obtain ⟨g, rfl⟩ : ∃ g, f = g + 1 := ⟨f - 1, by omega⟩
    unfold scanDrain
    rw [next_panic_mono hn (by omega)]
    rfl
  | later hn _ ih =>
    obtain ⟨n, ih⟩ := ih
    refine ⟨n + m.fuel + 1, fun acc f hf => ?_⟩
    obtain ⟨g, rfl⟩ : ∃ g, f = g + 1 := ⟨f - 1, by omega⟩
    unfold scanDrain
    rw [next_mono hn (by omega), Res.ok_bind]
    exact ih _ g (by omega)

/-! ## Requests -/

/-- A name the kernel can ask for: no slash in it. -/
theorem find_no_panic {dev : Dev} (hd : dev.SaneBelow (2 ^ 44)) (tab : Region) {n : Str} (h : '/' ∉ n) (f : Nat) :
    walkPath dev tab n f ≠ .panic := by
  by_cases h0 : n = []
  · subst h0; unfold walkPath; simp
  · rw [walkPath_plain dev tab f h0 h]
    exact findDirent_no_panic hd _ _ _

theorem readData_no_panic {dev : Dev} (hd : dev.SaneBelow (2 ^ 44)) (d : DiskData) (size offset : Nat) :
    readDataOffset dev d size offset ≠ .panic ∧ readDataOffset dev d size offset ≠ .hang := by
  unfold readDataOffset
  simp only
  split
  · exact ⟨nofun, nofun⟩
  · cases ho : d.data.offset offset with
    | ok off =>
      rw [Res.ok_bind]
      have := Region.offset_lt ho
      have hr := hd off (min size d.data.size.toNat) (by omega)
      exact ⟨hr.1, hr.2⟩
    | err e => exact ⟨nofun, nofun⟩
    | panic => exact absurd ho (Region.offset_returns _ _).1
    | hang => exact absurd ho (Region.offset_returns _ _).2

theorem scanInit_returns {dev : Dev} (hd : dev.SaneBelow (2 ^ 44)) (tab : Region) : (scanInit dev tab).Returns := by
  unfold scanInit
  split
  · exact Returns.ok _
  · cases ho : tab.offset 0 with
    | ok off =>
      rw [Res.ok_bind]
      have := Region.offset_lt ho
      have hr := hd off 2048 (by omega)
      cases hb : dev.read off 2048 with
      | ok b => exact Returns.ok _
      | err e => exact Returns.err _
      | panic => exact absurd hb hr.1
      | hang => exact absurd hb hr.2
    | err e => exact Returns.err _
    | panic => exact absurd ho (Region.offset_returns _ _).1
    | hang => exact absurd ho (Region.offset_returns _ _).2

theorem step_counts {m : Mount} {c c' : FuseCache} {op : FuseOp} {r : FuseReply} (hc : Counts m.dev c)
    (h : fuseStep m c op = .ok (r, c')) : Counts m.dev c' := by
  cases op with
  | lookup parent name =>
    simp only [fuseStep, fuseLookup] at h
    split at h
    · cases h; exact hc
    · split at h
      · cases h; exact hc
      · split at h
        · rename_i d hw
          obtain ⟨i, c1, g1, g2⟩ := hc.assign (walkPath_exists hw)
          rw [g1] at h
          cases h
          exact g2
        · cases h; exact hc
        · cases h
        · cases h
  | getattr ino => cases h; exact hc
  | «open» ino flags => cases h; exact hc
  | read ino offset size =>
    simp only [fuseStep] at h
    obtain ⟨r', _, h⟩ := Res.bind_eq_ok.1 h
    cases h
    exact hc
  | opendir ino flags => cases h; exact hc
  | readdir ino offset full =>
    simp only [fuseStep, fuseReaddir] at h
    split at h
    · cases h; exact hc
    · split at h
      · cases h
      · cases h
      · cases h; exact hc
      · rename_i s hs
        split at h
        · cases h; exact hc
        · split at h
          · cases h
          · cases h
          · cases h; exact hc
          · rename_i idx s' hk
            exact (add_counts hc (skip_holds (scanInit_holds hs) hk)).1 _ _ h
  | access ino => cases h; exact hc

theorem run_counts {m : Mount} : ∀ {ops : List FuseOp} {c c' : FuseCache} {rs : List FuseReply}, Counts m.dev c →
    fuseRun m c ops = .ok (rs, c') → Counts m.dev c' := by
  intro ops
  induction ops with
  | nil => intro c c' rs hc h; cases h; exact hc
  | cons op ops ih =>
    intro c c' rs hc h
    unfold fuseRun at h
    obtain ⟨⟨r, c1⟩, h1, h⟩ := Res.bind_eq_ok.1 h
    obtain ⟨⟨rs', c2⟩, h2, h⟩ := Res.bind_eq_ok.1 h
    cases h
    exact ih (step_counts hc h1) h2

/-- A request that kills the program is a listing of a table whose scan panics, or a lookup with a slash in the name. -/
theorem step_panic {m : Mount} (hd : m.dev.SaneBelow (2 ^ 44)) {c : FuseCache} {op : FuseOp} (hc : Counts m.dev c)
    (h : fuseStep m c op = .panic) :
    (∃ ino offset full tab, op = .readdir ino offset full ∧ c.table m.root ino = some tab ∧
      ∃ fuel, scanAll m.dev tab fuel = .panic) ∨ ∃ parent n, op = .lookup parent (some n) ∧ '/' ∈ n := by
  cases op with
  | lookup parent name =>
    simp only [fuseStep, fuseLookup] at h
    split at h
    · cases h
    · rename_i n
      right
      refine ⟨parent, n, rfl, Classical.byContradiction fun hn => ?_⟩
      split at h
      · cases h
      · split at h
        · rename_i d hw
          obtain ⟨i, c1, g1, g2⟩ := hc.assign (walkPath_exists hw)
          rw [g1] at h
          cases h
        · cases h
        · rename_i hw; exact find_no_panic hd _ hn _ hw
        · cases h
  | getattr ino => cases h
  | «open» ino flags => cases h
  | read ino offset size =>
    exfalso
    simp only [fuseStep] at h
    rcases Res.bind_eq_panic.1 h with h | ⟨_, _, h⟩
    · unfold fuseRead at h
      split at h
      · cases h
      · cases h
      · split at h
        · cases h
        · split at h
          · cases h
          · cases h
          · rename_i hx; exact (readData_no_panic hd _ _ _).1 hx
          · cases h
    · cases h
  | opendir ino flags => cases h
  | readdir ino offset full =>
    left
    simp only [fuseStep, fuseReaddir] at h
    split at h
    · cases h
    · rename_i tab ht
      refine ⟨ino, offset, full, tab, rfl, ht, ?_⟩
      have hinit : ∀ s, scanInit m.dev tab = .ok s → PanicsAt m s → ∃ fuel, scanAll m.dev tab fuel = .panic := by
        intro s hs hp
        obtain ⟨n, hn⟩ := hp.drain
        exact ⟨n, by unfold scanAll; rw [hs, Res.ok_bind]; exact hn _ _ (Nat.le_refl _)⟩
      split at h
      · rename_i hx; exact absurd hx (scanInit_returns hd tab).1
      · cases h
      · cases h
      · rename_i s hs
        split at h
        · cases h
        · split at h
          · rename_i hk; exact hinit s hs (skip_panics hk)
          · cases h
          · cases h
          · rename_i idx s' hk
            exact hinit s hs (skip_later hk ((add_counts hc (skip_holds (scanInit_holds hs) hk)).2 h))
  | access ino => cases h

/-- The device of a mounted image file. -/
theorem mount_sane {img : Bytes} {fuel : Nat} {m : Mount} {c : FuseCache}
    (h : mountImage (fileDev img) fuel = .ok (m, c)) : m.dev.SaneBelow (2 ^ 44) ∧ m.fuel = fuel := by
  unfold mountImage at h
  obtain ⟨o, h1, h⟩ := Res.bind_eq_ok.1 h
  obtain ⟨v, h2, h⟩ := Res.bind_eq_ok.1 h
  cases h
  have ho : o < 2 ^ 44 := by
    obtain ⟨before, after, h2, _, _⟩ := (C07_offset_first_valid (fileDev img) (fileDev_sane img _) o).1 h1
    have : o ∈ partitionOffsets := by rw [h2]; simp
    revert this
    unfold partitionOffsets
    simp only [List.mem_cons, List.not_mem_nil, or_false]
    rintro (rfl | rfl | rfl | rfl) <;> decide
  refine ⟨?_, rfl⟩
  intro off n hoff
  show (offsetRead (fileDev img).read o off n).Returns
  unfold offsetRead
  rw [if_pos (by omega)]
  exact fileDev_sane img (2 ^ 45) _ _ (by omega)

/-! ## Packed images -/

/-- An entry of a packed image: what it says about its data is true. -/
def Located (Loc : Path → Listing → Prop) (d : DirEnt) : Prop :=
  ∃ p l, Loc p l ∧ d.node.dirent.data = regionOf l ∧ d.node.dirent.isDirectory = l.isDir

/-- Every entry that has a number is located. -/
def AllKnown (Loc : Path → Listing → Prop) (c : FuseCache) : Prop :=
  ∀ i d, c.byInode.lookup i = some d → Located Loc d

theorem AllKnown.assign {Loc : Path → Listing → Prop} {c c' : FuseCache} (h : AllKnown Loc c) {d : DirEnt} (hd : Located Loc d)
    {i : Nat} (hg : c.getOrAssign d = .ok (i, c')) : AllKnown Loc c' := by
  unfold FuseCache.getOrAssign at hg
  split at hg
  · cases hg; exact h
  · split at hg
    · cases hg
      intro j d' hj
      simp only [List.lookup_cons] at hj
      split at hj
      · cases hj; exact hd
      · exact h j d' hj
    · cases hg

theorem AllKnown.table {Loc : Path → Listing → Prop} {c : FuseCache} (h : AllKnown Loc c) {l0 : Listing} (h0 : Loc [] l0)
    (hd0 : l0.isDir = true) {ino : Nat} {tab : Region} (ht : c.table (regionOf l0) ino = some tab) :
    ∃ p l, Loc p l ∧ l.isDir = true ∧ tab = regionOf l := by
  unfold FuseCache.table at ht
  split at ht
  · cases ht; exact ⟨[], l0, h0, hd0, rfl⟩
  · cases hl : c.byInode.lookup ino with
    | none => rw [hl] at ht; cases ht
    | some d =>
      rw [hl] at ht
      obtain ⟨p, l, k1, k2, k3⟩ := h _ _ hl
      simp only [Option.bind_some] at ht
      unfold DiskData.direntTable at ht
      split at ht
      · rename_i hdir
        cases ht
        exact ⟨p, l, k1, by rw [← k3]; exact hdir, k2⟩
      · cases ht

theorem add_known {m : Mount} {Loc : Path → Listing → Prop} {full : List DirRec → DirRec → Bool} : ∀ {f idx : Nat} {s : Scan}
    {ds : List DirEnt} {recs : List DirRec} {c : FuseCache}, Scans m s ds → ds.length < f → Counts m.dev c →
    ScanHolds m.dev s → AllKnown Loc c → (∀ d ∈ ds, Located Loc d) →
    ∃ out c', addRecords m full f idx s recs c = .ok (.dir out, c') ∧ AllKnown Loc c' := by
  intro f
  induction f with
  | zero => intro idx s ds recs c _ h; omega
  | succ f ih =>
    intro idx s ds recs c hs hf hc hh hk hds
    unfold addRecords
    cases hs with
    | nil hn => simp only [hn]; exact ⟨_, _, rfl, hk⟩
    | @cons _ d s' ds hn hs' =>
      simp only [hn]
      obtain ⟨hh', hex⟩ := next_holds hh hn
      obtain ⟨i, c1, h1, h2⟩ := hc.assign (hex d rfl)
      have hk1 := hk.assign (hds d List.mem_cons_self) h1
      simp only [h1, Res.ok_bind]
      split
      · exact ⟨_, _, rfl, hk1⟩
      · exact ih hs' (by simp only [List.length_cons] at hf; omega) h2 hh' hk1
          (fun d hd => hds d (List.mem_cons_of_mem _ hd))

/-- Requests the kernel makes: names have no slash. -/
theorem img_step {rd : ReadDir} {content : Path → Bytes} {m : Mount} {M : PathMap TabWriter} {Loc : Path → Listing → Prop}
    (hI : Img rd content m.dev M Loc) {l0 : Listing} (h0 : Loc [] l0) (hd0 : l0.isDir = true) (hr : m.root = regionOf l0)
    (hd : m.dev.SaneBelow (2 ^ 44)) (hf : SearchBudget rd m.fuel)
    (hf' : ∀ p l, DirOf rd p → rd p = .ok l → l.length < m.fuel) {c : FuseCache} (hc : Counts m.dev c) (hk : AllKnown Loc c)
    {op : FuseOp} (hop : ∀ parent n, op = .lookup parent (some n) → '/' ∉ n) :
    ∃ r c', fuseStep m c op = .ok (r, c') ∧ AllKnown Loc c' := by
  cases op with
  | lookup parent name =>
    simp only [fuseStep, fuseLookup]
    cases name with
    | none => exact ⟨_, _, rfl, hk⟩
    | some n =>
      have hn := hop _ _ rfl
      simp only
      cases ht : c.table m.root parent with
      | none => exact ⟨_, _, rfl, hk⟩
      | some tab =>
        simp only
        rw [hr] at ht
        obtain ⟨p, l, k1, k2, rfl⟩ := hk.table h0 hd0 ht
        by_cases hn0 : n = []
        · subst hn0; simp only [walkPath, true_or, if_true]; exact ⟨_, _, rfl, hk⟩
        · have hw := walkPath_plain m.dev (regionOf l) m.fuel hn0 hn
          obtain ⟨lst, hdir, hrd, hcase⟩ := hI.find k1 k2 n hf
          rcases hcase with ⟨e1, d, l', he1, hs1, hfind, hn1, hr1, hk1, hloc, hk2⟩ | ⟨hno, hfind⟩
          · rw [hw, hfind]
            simp only
            obtain ⟨i, c1, g1, g2⟩ := hc.assign (findDirent_exists hfind)
            rw [g1, Res.ok_bind]
            exact ⟨_, _, rfl, hk.assign ⟨_, l', hloc, hr1, by rw [hk1, hk2]⟩ g1⟩
          · rw [hw]
            rw [hfind]; exact ⟨_, _, rfl, hk⟩
  | getattr ino => exact ⟨_, _, rfl, hk⟩
  | «open» ino flags => exact ⟨_, _, rfl, hk⟩
  | read ino offset size =>
    simp only [fuseStep]
    suffices hx : ∃ r, fuseRead m c ino offset size = .ok r by
      obtain ⟨r, hx⟩ := hx
      rw [hx, Res.ok_bind]
      exact ⟨_, _, rfl, hk⟩
    unfold fuseRead
    split
    · exact ⟨_, rfl⟩
    · exact ⟨_, rfl⟩
    · rename_i d _
      split
      · exact ⟨_, rfl⟩
      · obtain ⟨g1, g2⟩ := readData_no_panic hd d.node.dirent size offset.toNat
        cases hx : readDataOffset m.dev d.node.dirent size offset.toNat with
        | ok b => exact ⟨_, rfl⟩
        | err e => exact ⟨_, rfl⟩
        | panic => exact absurd hx g1
        | hang => exact absurd hx g2
  | opendir ino flags => exact ⟨_, _, rfl, hk⟩
  | readdir ino offset full =>
    simp only [fuseStep, fuseReaddir]
    cases ht : c.table m.root ino with
    | none => exact ⟨_, _, rfl, hk⟩
    | some tab =>
      rw [hr] at ht
      obtain ⟨p, l, k1, k2, rfl⟩ := hk.table h0 hd0 ht
      obtain ⟨lst, ds, g1, g2, g3, g4, _⟩ := hI.scan_dir k1 k2
      obtain ⟨s, e1, e2, e3⟩ := scanAll_scans (g3 m.fuel (hf' p lst g1 g2))
      simp only [e1]
      cases hdot : dotRecords ino offset full with
      | none => exact ⟨_, _, rfl, hk⟩
      | some recs =>
        obtain ⟨s', a1, a2⟩ := e2.skip (offset - 2).toNat 2
        simp only [a1]
        obtain ⟨out, c', b1, b2⟩ := add_known (full := full) (recs := recs) (f := m.fuel)
          (idx := 2 + min (offset - 2).toNat ds.length) a2 (by simp; omega) hc
          (skip_holds (scanInit_holds e1) a1) hk
          (fun d hd => ⟨_, summary d, g4 d (List.mem_of_mem_drop hd), by simp [regionOf, summary], rfl⟩)
        exact ⟨_, _, b1, b2⟩
  | access ino => exact ⟨_, _, rfl, hk⟩

end Xdvdfs
