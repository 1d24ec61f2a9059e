import Verif.Proof.FuseImg
import Verif.Props.Repack

/-!
# Properties of mounted images
-/

namespace Xdvdfs.Props
open Spec

/-! ## A mounted sample -/

theorem packed_mounts {fs : SourceFs} {content : Path → Bytes} {img : Bytes} {M : PathMap TabWriter}
    {Loc : Path → Listing → Prop} {l0 : Listing} (hP : Packed fs content img M Loc l0) (fuel : Nat) :
    mountImage (fileDev img) fuel = .ok (⟨offsetDev (fileDev img) 0, regionOf l0, fuel⟩, .new) := by
  unfold mountImage
  rw [offsetNew_zero hP.volume]
  simp only [Res.ok_bind]
  rw [(offsetDev_zero _).readVolume, hP.volume]
  rfl

theorem sample_budget : SearchBudget sampleFs'.readDir 3 := by
  intro p l hp hl
  have := sample_scanFuel p l hp hl
  have h : l.length + 1 ≤ 3 := by omega
  have : Nat.log2 (l.length + 1) ≤ 1 := by
    have : l.length = 0 ∨ l.length = 1 ∨ l.length = 2 := by omega
    rcases this with h | h | h <;> rw [h] <;> decide
  omega

/-- A directory table with the files `a`, 5 bytes, and `b`, 2 bytes, in the sector after the table. -/
def twoTable : Bytes :=
  DiskNode.ser ⟨0, 4, ⟨⟨34, 5⟩, 0x20, 1⟩⟩ ++ [0x61] ++ [0xff] ++ DiskNode.ser ⟨0, 0, ⟨⟨34, 2⟩, 0x20, 1⟩⟩ ++ [0x62]

/-- A mounted image with this table and the data `1, 2, 3, 4, 5, 6`. -/
def twoMount : Mount := ⟨handDev 65536 (handImage twoTable ++ [1, 2, 3, 4, 5, 6]), ⟨33, 2048⟩, 4⟩

set_option maxRecDepth 20000 in
theorem two_mounts : mountImage (fileDev (List.replicate 65536 0 ++ (handImage twoTable ++ [1, 2, 3, 4, 5, 6]))) 4 =
    .ok (⟨offsetDev (fileDev (List.replicate 65536 0 ++ (handImage twoTable ++ [1, 2, 3, 4, 5, 6]))) 0, ⟨33, 2048⟩, 4⟩, .new) := by
  have hv : readVolume (fileDev (List.replicate 65536 0 ++ (handImage twoTable ++ [1, 2, 3, 4, 5, 6]))) =
      .ok (VolDesc.new ⟨33, 2048⟩) := by
    rw [handDev_eq]; decide +kernel
  unfold mountImage
  rw [offsetNew_zero hv]
  simp only [Res.ok_bind]
  rw [(offsetDev_zero _).readVolume, hv]
  rfl

/-- The entry for `a` as the search returns it. -/
def twoFoundA : DirEnt := ⟨⟨0, 4, ⟨⟨34, 5⟩, 0x20, 1⟩⟩, [0x61], 67584⟩

/-- The entries as the scan returns them. -/
def twoA : DirEnt := ⟨⟨0, 4, ⟨⟨34, 5⟩, 0x20, 1⟩⟩, [0x61], 0⟩
def twoB : DirEnt := ⟨⟨0, 0, ⟨⟨34, 2⟩, 0x20, 1⟩⟩, [0x62], 16⟩

set_option maxRecDepth 20000 in
theorem two_scan : scanAll twoMount.dev ⟨33, 2048⟩ 4 = .ok [twoA, twoB] := by decide +kernel

set_option maxRecDepth 20000 in
theorem two_find : walkPath twoMount.dev ⟨33, 2048⟩ ['A'] 4 = .ok twoFoundA := by decide +kernel

set_option maxRecDepth 20000 in
theorem two_read : readDataAll twoMount.dev twoFoundA.node.dirent = .ok [1, 2, 3, 4, 5] := by decide +kernel

theorem two_parts : PartsReadable twoMount.dev := by
  have := fileDev_parts (List.replicate 65536 0 ++ (handImage twoTable ++ [1, 2, 3, 4, 5, 6]))
  rw [handDev_eq] at this
  exact this

/-- A buffer without limit. -/
def noLimit : List DirRec → DirRec → Bool := fun _ _ => false

/-- A buffer with room for `n` records. -/
def roomFor (n : Nat) : List DirRec → DirRec → Bool := fun recs _ => decide (n ≤ recs.length)

/-! ## C52: inode numbers -/

/-- C52: after any history of requests, every number the client has ever been told stands for the entry it
was told for: it is at least 2, its attributes are those of the entry, reading it reads the data of the entry,
and looking up names in it looks in the table of the entry.  Two numbers told at any times are equal exactly
when the entries are. -/
theorem C52_inode_numbers {m : Mount} {ops : List FuseOp} {rs : List FuseReply} {c : FuseCache}
    (h : fuseRun m .new ops = .ok (rs, c)) {i : Nat} {d : DirEnt} (ht : Told m ops i d) :
    2 ≤ i ∧ i < 2 ^ 64 ∧
    fuseStep m c (.getattr i) =
      .ok (.attr ⟨i, d.node.dirent.data.size.toNat, (d.node.dirent.data.size.toNat + 2047) / 2048, d.node.dirent.isDirectory⟩, c) ∧
    (∀ (offset : Nat) size b, readDataOffset m.dev d.node.dirent size offset = .ok b →
      fuseStep m c (.read i offset size) = .ok (.data b, c)) ∧
    (∀ (offset : Nat) size e, readDataOffset m.dev d.node.dirent size offset = .err e →
      fuseStep m c (.read i offset size) = .ok (.error .EIO, c)) ∧
    c.table m.root i = d.node.dirent.direntTable ∧
    ∀ i' d', Told m ops i' d' → (i = i' ↔ d = d') := by
  have hk := told_known h ht
  obtain ⟨hc, _⟩ := fuseRun_spec .new h
  have hnext := fuseRun_next (by decide) h
  obtain ⟨h2, h3⟩ := hc.range _ _ hk
  have he := entry_of_lookup hc hk
  refine ⟨h2, by omega, ?_, ?_, ?_, table_of_lookup hc hk _, ?_⟩
  · simp only [fuseStep, fuseGetattr, he]; rfl
  · intro offset size b hb
    simp only [fuseStep, fuseRead, he, if_neg (by omega : ¬ ((offset : Int) < 0)), Int.toNat_natCast, hb, Res.ok_bind, Res.pure_eq]
  · intro offset size e hb
    simp only [fuseStep, fuseRead, he, if_neg (by omega : ¬ ((offset : Int) < 0)), Int.toNat_natCast, hb, Res.ok_bind, Res.pure_eq]
  · intro i' d' ht'
    have hk' := told_known h ht'
    constructor
    · rintro rfl
      rw [hk] at hk'; cases hk'; rfl
    · rintro rfl
      have a := (hc.inverse d i).2 hk
      have b := (hc.inverse d i').2 hk'
      rw [a] at b; cases b; rfl

/-- Two requests: look up `A`, then list the root directory. -/
def twoOps : List FuseOp := [.lookup 1 (some ['A']), .readdir 1 0 noLimit]

def twoCache : FuseCache :=
  ⟨[(4, twoB), (3, twoA), (2, twoFoundA)], [(twoB, 4), (twoA, 3), (twoFoundA, 2)], 5⟩

set_option maxRecDepth 20000 in
theorem two_run : fuseRun twoMount .new twoOps =
    .ok ([.entry ⟨2, 5, 1, false⟩, .dir [⟨1, 1, true, ['.']⟩, ⟨1, 2, true, ['.', '.']⟩, ⟨3, 3, false, ['a']⟩, ⟨4, 4, false, ['b']⟩]],
      twoCache) := by decide +kernel

set_option maxRecDepth 20000 in
theorem two_run1 : fuseRun twoMount .new [.lookup 1 (some ['A'])] =
    .ok ([.entry ⟨2, 5, 1, false⟩], ⟨[(2, twoFoundA)], [(twoFoundA, 2)], 3⟩) := by decide +kernel

set_option maxRecDepth 20000 in
theorem two_step1 : fuseStep twoMount .new (.lookup 1 (some ['A'])) =
    .ok (.entry ⟨2, 5, 1, false⟩, ⟨[(2, twoFoundA)], [(twoFoundA, 2)], 3⟩) := by decide +kernel

theorem two_told : Told twoMount twoOps 2 twoFoundA :=
  ⟨[], _, _, [], .new, _, _, rfl, rfl, two_step1, .lookup rfl two_find⟩

theorem two_told1 : Told twoMount [.lookup 1 (some ['A'])] 2 twoFoundA :=
  ⟨[], _, _, [], .new, _, _, rfl, rfl, two_step1, .lookup rfl two_find⟩

/-- The two requests satisfy the hypotheses. -/
example : fuseStep twoMount twoCache (.getattr 2) = .ok (.attr ⟨2, 5, 1, false⟩, twoCache) :=
  (C52_inode_numbers two_run two_told).2.2.1

/-- C52, the root: after any history, number 1 is a directory with the size of the root table, it cannot be read like a
file, and its table is the root table; reading an entry at a negative offset is refused; and number 0 stands for nothing. -/
theorem C52_root_number {m : Mount} {ops : List FuseOp} {rs : List FuseReply} {c : FuseCache}
    (h : fuseRun m .new ops = .ok (rs, c)) :
    fuseStep m c (.getattr 1) =
      .ok (.attr ⟨1, m.root.size.toNat, (m.root.size.toNat + 2047) / 2048, true⟩, c) ∧
    (∀ offset size, fuseStep m c (.read 1 offset size) = .ok (.error .EISDIR, c)) ∧
    c.table m.root 1 = some m.root ∧
    (∀ i d offset size, Told m ops i d → offset < 0 → fuseStep m c (.read i offset size) = .ok (.error .EINVAL, c)) ∧
    fuseStep m c (.getattr 0) = .ok (.error .ENOENT, c) ∧
    ∀ offset size, fuseStep m c (.read 0 offset size) = .ok (.error .ENOENT, c) := by
  obtain ⟨hc, _⟩ := fuseRun_spec .new h
  have h0 : c.entry 0 = .none := by
    unfold FuseCache.entry
    rw [if_neg (by decide)]
    cases hl : c.byInode.lookup 0 with
    | none => rfl
    | some d => exact absurd (hc.range _ _ hl).1 (by decide)
  refine ⟨rfl, fun _ _ => rfl, rfl, ?_, ?_, ?_⟩
  · intro i d offset size ht ho
    simp only [fuseStep, fuseRead, entry_of_lookup hc (told_known h ht), if_pos ho, Res.ok_bind, Res.pure_eq]
  · simp only [fuseStep, fuseGetattr, h0]
  · intro offset size
    simp only [fuseStep, fuseRead, h0, Res.ok_bind, Res.pure_eq]

example : fuseStep twoMount twoCache (.read 2 (-1) 3) = .ok (.error .EINVAL, twoCache) :=
  (C52_root_number two_run).2.2.2.1 _ _ _ _ two_told (by decide)

/-! ## C53: listing in pieces -/

/-- C53, for listings in which no call fails: however a client splits reading a directory over calls, with
whatever buffers and whatever other requests in between, it receives `.`, `..` and then every entry of the
directory exactly once and in order.  What is missing: a call can fail, see `C53_resume_false`. -/
theorem C53_resume_partial {m : Mount} {ops : List FuseOp} {rs : List FuseReply} {c : FuseCache}
    (hrun : fuseRun m .new ops = .ok (rs, c)) {ino : Nat} {tab : Region} (ht : c.table m.root ino = some tab)
    {ds : List DirEnt} (hs : scanAll m.dev tab m.fuel = .ok ds) {recs : List DirRec} (h : ReadsDir m ino c 0 recs) :
    recs.map recKey = fullListing ds ∧ ∀ j r, recs[j]? = some r → r.next = j + 1 := by
  obtain ⟨h1, h2⟩ := readsDir_spec hs h (fuseRun_spec .new hrun).1 ht
  refine ⟨by simpa using h1, ?_⟩
  intro j r hr
  have := h2 j r hr
  omega

/-- C53: a call succeeds if the buffer has room for the first two records (and the numbers have not run out);
it delivers as many records as fit. -/
theorem C53_call_succeeds {m : Mount} {c : FuseCache} {ino : Nat} {tab : Region} (ht : c.table m.root ino = some tab)
    {ds : List DirEnt} (hs : scanAll m.dev tab m.fuel = .ok ds) (o : Nat) (hnum : c.next + (ds.length - (o - 2)) < 2 ^ 64)
    {full : List DirRec → DirRec → Bool} (h1 : ∀ r, full [] r = false) (h2 : ∀ r r', full [r] r' = false) :
    ∃ recs c', fuseStep m c (.readdir ino o full) = .ok (.dir recs, c') ∧
      recs.map recKey = ((fullListing ds).drop o).take recs.length ∧
      (recs.length < (fullListing ds).length - o → ∃ r, full recs r = true) := by
  obtain ⟨s, hi, hsc, hlen⟩ := scanAll_scans hs
  obtain ⟨s', e1, e2⟩ := hsc.skip ((o : Int) - 2).toNat 2
  have hd : ∃ recs0, dotRecords ino o full = some recs0 := by
    unfold dotRecords
    simp only [h1, h2]
    split
    · exact ⟨_, rfl⟩
    · split
      · exact ⟨_, rfl⟩
      · exact ⟨_, rfl⟩
  obtain ⟨recs0, hd⟩ := hd
  have hl : (ds.drop ((o : Int) - 2).toNat).length = ds.length - (o - 2) := by
    rw [List.length_drop]; omega
  obtain ⟨out, c', h⟩ := e2.add_succeeds (full := full) (f := m.fuel) (idx := 2 + min ((o : Int) - 2).toNat ds.length)
    (recs := recs0) (c := c) (by omega) (by omega)
  have hstep : fuseStep m c (.readdir ino o full) = .ok (.dir out, c') := by
    simp only [fuseStep, fuseReaddir, ht, hi, hd, e1, h]
  obtain ⟨g1, _, _, g4⟩ := readdir_call ht hs hstep
  exact ⟨out, c', hstep, g1, g4⟩

/-- C53 is false in general: if the first buffer has room for one record only, the call fails instead of
delivering `.` alone, for every directory of every image. -/
theorem C53_resume_false {m : Mount} {c : FuseCache} {ino : Nat} {tab : Region} (ht : c.table m.root ino = some tab)
    {ds : List DirEnt} (hs : scanAll m.dev tab m.fuel = .ok ds) :
    fuseStep m c (.readdir ino 0 (roomFor 1)) = .ok (.error .EIO, c) := by
  obtain ⟨s, hi, _⟩ := scanAll_scans hs
  simp only [fuseStep, fuseReaddir, ht, hi]
  rfl

/-- A client that uses large buffers reads any directory to the end. -/
theorem C53_listing_ends {m : Mount} {ops : List FuseOp} {rs : List FuseReply} {c : FuseCache}
    (hrun : fuseRun m .new ops = .ok (rs, c)) {ino : Nat} {tab : Region} (ht : c.table m.root ino = some tab)
    {ds : List DirEnt} (hs : scanAll m.dev tab m.fuel = .ok ds) (hnum : c.next + ds.length < 2 ^ 64) :
    ∃ recs, ReadsDir m ino c 0 recs := by
  obtain ⟨recs, c1, h1, h2, h3⟩ := C53_call_succeeds ht hs 0 (by omega) (full := noLimit) (fun _ => rfl) (fun _ _ => rfl)
  have hlen : ¬ recs.length < (fullListing ds).length - 0 := by
    intro h
    obtain ⟨r, hr⟩ := h3 h
    cases hr
  obtain ⟨_, k1, k2, _⟩ := readdir_call (o := 0) ht hs h1
  have hfl : (fullListing ds).length = ds.length + 2 := by simp [fullListing]
  have hx := fuseStep_next (fuseRun_next (by decide) hrun) h1
  have ht1 : c1.table m.root ino = some tab := by
    obtain ⟨hc, _⟩ := fuseRun_spec .new hrun
    exact table_ext (fuseStep_spec hc h1).2.1 ht
  have hl : ∃ r, recs.getLast? = some r ∧ r.next = (fullListing ds).length := by
    have hne : recs.length - 1 < recs.length := by omega
    refine ⟨recs[recs.length - 1], ?_, ?_⟩
    · rw [List.getLast?_eq_getElem?, List.getElem?_eq_getElem hne]
    · have := k2 _ _ (List.getElem?_eq_getElem hne)
      omega
  obtain ⟨r, hr1, hr2⟩ := hl
  obtain ⟨recs2, c2, g1, g2, _⟩ := C53_call_succeeds ht1 hs (fullListing ds).length (by omega)
    (full := noLimit) (fun _ => rfl) (fun _ _ => rfl)
  have : recs2 = [] := by
    rw [List.drop_length] at g2
    simpa using g2
  subst this
  refine ⟨recs ++ [], .more (ops := []) (fun _ => rfl) h1 hr1 rfl (.done (full := noLimit) (c' := c2) (fun _ => rfl) ?_)⟩
  rw [hr2]
  exact g1

/-- The root directory of the sample, after the two requests above, is read to the end and gives the full
listing. -/
example : ∃ recs, ReadsDir twoMount 1 twoCache 0 recs ∧
    recs.map recKey = [(['.'], true), (['.', '.'], true), (['a'], false), (['b'], false)] := by
  obtain ⟨recs, h⟩ := C53_listing_ends two_run (ino := 1) rfl two_scan (by decide)
  exact ⟨recs, h, (C53_resume_partial two_run (ino := 1) rfl two_scan h).1⟩

/-! ## C54: one number per file -/

/-- C54 is false, for every mounted image and every directory whose table is not in sector 0 (as in every
packed image): the number that looking up a name reports never appears in a listing of the directory. -/
theorem C54_one_inode_false {m : Mount} {ops : List FuseOp} {rs : List FuseReply} {c : FuseCache}
    (hrun : fuseRun m .new ops = .ok (rs, c)) {ino : Nat} {tab : Region} (ht : c.table m.root ino = some tab)
    (hsec : tab.sector ≠ 0) {name : Str} (hname : name ≠ [] ∧ '/' ∉ name) {a : FuseAttr} {c' c'' : FuseCache}
    (hl : fuseStep m c (.lookup ino (some name)) = .ok (.entry a, c')) {offset : Int}
    {full : List DirRec → DirRec → Bool} {recs : List DirRec}
    (hr : fuseStep m c' (.readdir ino offset full) = .ok (.dir recs, c'')) :
    ∀ r ∈ recs, 3 ≤ r.next → r.ino ≠ a.ino := by
  obtain ⟨hc, _⟩ := fuseRun_spec .new hrun
  obtain ⟨hc', hx, htell⟩ := fuseStep_spec hc hl
  obtain ⟨_, hx', _⟩ := fuseStep_spec hc' hr
  intro r hin hn heq
  obtain ⟨tab', d, e1, e2, e3⟩ := readdir_record hc' hr hin hn
  have hd2 : d.offset < 2048 := by
    unfold tableEntry at e2
    split at e2
    · exact nthEntry_offset e2
    · cases e2
  have hl' := hl
  simp only [fuseStep, fuseLookup, ht] at hl'
  split at hl'
  · rename_i d0 hd0
    have := hx' _ _ (htell _ _ (.lookup ht hd0))
    rw [heq, this] at e3
    cases e3
    rw [walkPath_plain _ _ _ hname.1 hname.2] at hd0
    have := findDirent_offset hd0
    have hpos : tab.sector.toNat ≠ 0 := fun h => hsec (UInt32.toNat_inj.1 (by rw [h]; rfl))
    omega
  · cases hl'
  · cases hl'
  · cases hl'

/-- C54, what does hold: looking up the same name again, in any letter case and at any later time, reports the
same number, and so does listing the same directory again, record by record.  What is missing: the two kinds of
numbers do not agree, see `C54_one_inode_false`. -/
theorem C54_one_inode_partial {m : Mount} {ops ops' : List FuseOp} {rs rs' : List FuseReply} {c c1 c2 c3 : FuseCache}
    (hrun : fuseRun m .new ops = .ok (rs, c)) {ino : Nat} :
    (∀ name name' a a', name ≠ [] → '/' ∉ name → name' ≠ [] → '/' ∉ name' → SameName name name' →
      fuseStep m c (.lookup ino (some name)) = .ok (.entry a, c1) → fuseRun m c1 ops' = .ok (rs', c2) →
      fuseStep m c2 (.lookup ino (some name')) = .ok (.entry a', c3) → a' = a) ∧
    (∀ offset offset' full full' recs recs',
      fuseStep m c (.readdir ino offset full) = .ok (.dir recs, c1) → fuseRun m c1 ops' = .ok (rs', c2) →
      fuseStep m c2 (.readdir ino offset' full') = .ok (.dir recs', c3) →
      ∀ r ∈ recs, ∀ r' ∈ recs', 3 ≤ r.next → r'.next = r.next → r'.ino = r.ino) := by
  obtain ⟨hc, _⟩ := fuseRun_spec .new hrun
  constructor
  · intro name name' a a' n1 n2 n3 n4 hsame hl hmid hl'
    obtain ⟨hc1, hx1, ht1⟩ := fuseStep_spec hc hl
    obtain ⟨hc2, hx2⟩ := fuseRun_spec hc1 hmid
    obtain ⟨hc3, hx3, ht3⟩ := fuseStep_spec hc2 hl'
    have hl0 := hl
    have hl0' := hl'
    simp only [fuseStep, fuseLookup] at hl hl'
    split at hl
    · cases hl
    · rename_i tab htab
      have htab2 := table_ext (hx1.trans hx2) htab
      rw [htab2] at hl'
      simp only [walkPath_plain _ _ _ n1 n2, walkPath_plain _ _ _ n3 n4, ← findDirent_congr hsame] at hl hl'
      split at hl
      · rename_i d hd
        simp only [hd] at hl'
        obtain ⟨⟨i, cx⟩, e1, e2⟩ := Res.bind_eq_ok.1 hl
        obtain ⟨⟨i', cx'⟩, e1', e2'⟩ := Res.bind_eq_ok.1 hl'
        cases e2
        cases e2'
        have k1 := (getOrAssign_spec hc e1).2.2
        have k2 := (getOrAssign_spec hc2 e1').2.2
        have k3 := hx3 _ _ (hx2 _ _ k1)
        have := (hc3.inverse d i).2 k3
        rw [(hc3.inverse d i').2 k2] at this
        cases this
        rfl
      · cases hl
      · cases hl
      · cases hl
  · intro offset offset' full full' recs recs' hr hmid hr' r hin r' hin' hn hn'
    obtain ⟨hc1, hx1, ht1⟩ := fuseStep_spec hc hr
    obtain ⟨hc2, hx2⟩ := fuseRun_spec hc1 hmid
    obtain ⟨hc3, hx3, ht3⟩ := fuseStep_spec hc2 hr'
    obtain ⟨tab, d, e1, e2, e3⟩ := readdir_record hc hr hin hn
    obtain ⟨tab', d', e1', e2', e3'⟩ := readdir_record hc2 hr' hin' (by omega)
    rw [table_ext (hx1.trans hx2) e1] at e1'
    cases e1'
    rw [hn', e2] at e2'
    cases e2'
    have k3 := hx3 _ _ (hx2 _ _ e3)
    have := (hc3.inverse d _).2 k3
    rw [(hc3.inverse d _).2 e3'] at this
    exact Option.some.inj this

set_option maxRecDepth 20000 in
/-- In the sample `a` is number 2 when looked up and number 3 when listed. -/
example : ∃ r, fuseStep twoMount ⟨[(2, twoFoundA)], [(twoFoundA, 2)], 3⟩ (.readdir 1 0 noLimit) = .ok (.dir r, twoCache) ∧
    ∀ x ∈ r, 3 ≤ x.next → x.ino ≠ 2 := by
  have h : fuseStep twoMount ⟨[(2, twoFoundA)], [(twoFoundA, 2)], 3⟩ (.readdir 1 0 noLimit) =
    .ok (.dir [⟨1, 1, true, ['.']⟩, ⟨1, 2, true, ['.', '.']⟩, ⟨3, 3, false, ['a']⟩, ⟨4, 4, false, ['b']⟩], twoCache) := by
    decide +kernel
  exact ⟨_, h, C54_one_inode_false (ops := []) rfl (ino := 1) rfl (by decide) ⟨by decide, by decide⟩ two_step1 h⟩

set_option maxRecDepth 20000 in
/-- `A` looked up first and `a` looked up after listing the directory. -/
example : ∃ a c, fuseStep twoMount twoCache (.lookup 1 (some ['a'])) = .ok (.entry a, c) ∧ a = ⟨2, 5, 1, false⟩ := by
  have h : fuseStep twoMount twoCache (.lookup 1 (some ['a'])) = .ok (.entry ⟨2, 5, 1, false⟩, twoCache) := by
    decide +kernel
  have hm : fuseRun twoMount ⟨[(2, twoFoundA)], [(twoFoundA, 2)], 3⟩ [.readdir 1 0 noLimit] = .ok
    ([.dir [⟨1, 1, true, ['.']⟩, ⟨1, 2, true, ['.', '.']⟩, ⟨3, 3, false, ['a']⟩, ⟨4, 4, false, ['b']⟩]], twoCache) := by
    decide +kernel
  exact ⟨_, _, h, (C54_one_inode_partial (ops := []) rfl).1 ['A'] ['a'] _ _ (by decide) (by decide) (by decide) (by decide)
    rfl two_step1 hm h⟩

/-! ## C55: reading at the end -/

/-- C55, for offsets before the end: a request inside the file returns exactly the requested bytes; a request
that crosses the end either fails or starts with all the remaining bytes; and reading an empty file returns no
data.  What is missing: see `C55_past_end_false`. -/
theorem C55_mounted_read_partial {m : Mount} (hp : PartsReadable m.dev) {ops : List FuseOp} {rs : List FuseReply}
    {c : FuseCache} (hrun : fuseRun m .new ops = .ok (rs, c)) {i : Nat} {d : DirEnt} (ht : Told m ops i d) {b : Bytes}
    (hb : readDataAll m.dev d.node.dirent = .ok b) (offset size : Nat) :
    (offset < b.length → offset + size ≤ b.length →
      fuseStep m c (.read i offset size) = .ok (.data ((b.drop offset).take size), c)) ∧
    (offset < b.length → ∀ x, fuseStep m c (.read i offset size) = .ok (.data x, c) →
      x.take (b.length - offset) = (b.drop offset).take size) ∧
    (b = [] → fuseStep m c (.read i offset size) = .ok (.data [], c)) := by
  obtain ⟨_, _, _, hr, _⟩ := C52_inode_numbers hrun ht
  have hblen : b.length = d.node.dirent.data.size.toNat := readDataAll_length hb
  refine ⟨?_, ?_, ?_⟩
  · intro h1 h2
    exact hr _ _ _ (readDataOffset_parts hp hb (by omega) (by omega))
  · intro h1 x hx
    have he := entry_of_lookup (fuseRun_spec .new hrun).1 (told_known hrun ht)
    simp only [fuseStep, fuseRead, he, if_neg (by omega : ¬ ((offset : Int) < 0)), Int.toNat_natCast] at hx
    have hne : d.node.dirent.data.size ≠ 0 := by
      intro h
      rw [h, show (0 : UInt32).toNat = 0 from rfl] at hblen
      omega
    cases hro : readDataOffset m.dev d.node.dirent size offset with
    | ok y =>
      rw [hro] at hx
      simp at hx
      subst hx
      unfold readDataOffset at hro
      simp only [if_neg hne] at hro
      rw [Region.offset_of_lt (by omega)] at hro
      simp only [Res.ok_bind] at hro
      have hyl := m.dev.read_len _ _ _ hro
      -- compare on the common part
      have e1 := hp _ _ _ hro 0 (min y.length (b.length - offset)) (by omega)
      unfold readDataAll at hb
      rw [if_neg hne, Region.offset_of_lt (by omega)] at hb
      simp only [Res.ok_bind] at hb
      have e2 := hp _ _ _ hb offset (min y.length (b.length - offset)) (by omega)
      simp only [Nat.add_zero] at e1 e2
      rw [e1] at e2
      simp only [Res.ok.injEq, slice, List.drop_zero] at e2
      rw [← hblen] at hyl
      have t1 : y.take (b.length - offset) = y.take (min y.length (b.length - offset)) := by
        rw [Nat.min_comm, ← List.take_take, List.take_length]
      rw [t1, e2]
      rw [hyl]
      have t2 : (b.drop offset).take size = (b.drop offset).take (min size (b.length - offset)) := by
        rw [show b.length - offset = (b.drop offset).length by simp, ← List.take_take, List.take_length]
      rw [t2]
      congr 1
      omega
    | err e => rw [hro] at hx; simp at hx
    | panic => rw [hro] at hx; simp at hx
    | hang => rw [hro] at hx; simp at hx
  · intro h0
    have hz : d.node.dirent.data.size = 0 := by
      apply UInt32.toNat_inj.1
      rw [← hblen, h0]; rfl
    refine hr _ _ _ ?_
    unfold readDataOffset
    simp [hz]

/-- C55 is false for every file that is not empty: reading at or past its end fails instead of returning no
data, and a request that starts after the first byte and crosses the end never returns just the remaining
bytes. -/
theorem C55_past_end_false {m : Mount} {ops : List FuseOp} {rs : List FuseReply}
    {c : FuseCache} (hrun : fuseRun m .new ops = .ok (rs, c)) {i : Nat} {d : DirEnt} (ht : Told m ops i d) {b : Bytes}
    (hb : readDataAll m.dev d.node.dirent = .ok b) (hne : b ≠ []) (offset size : Nat) :
    (b.length ≤ offset → fuseStep m c (.read i offset size) = .ok (.error .EIO, c)) ∧
    (0 < offset → offset < b.length → b.length < offset + size →
      fuseStep m c (.read i offset size) ≠ .ok (.data (b.drop offset), c)) := by
  obtain ⟨_, _, _, _, hr, _⟩ := C52_inode_numbers hrun ht
  have hblen : b.length = d.node.dirent.data.size.toNat := readDataAll_length hb
  have hpos : 0 < b.length := List.length_pos_iff.2 hne
  have hz : d.node.dirent.data.size ≠ 0 := by
      intro h
      rw [h, show (0 : UInt32).toNat = 0 from rfl] at hblen
      omega
  constructor
  · intro h1
    refine hr _ _ .sizeOutOfBounds ?_
    unfold readDataOffset
    simp only [if_neg hz]
    unfold Region.offset
    rw [if_pos (by omega)]
    rfl
  · intro h0 h1 h2 hx
    have he := entry_of_lookup (fuseRun_spec .new hrun).1 (told_known hrun ht)
    simp only [fuseStep, fuseRead, he, if_neg (by omega : ¬ ((offset : Int) < 0)), Int.toNat_natCast] at hx
    cases hro : readDataOffset m.dev d.node.dirent size offset with
    | ok y =>
      rw [hro] at hx
      simp at hx
      unfold readDataOffset at hro
      simp only [if_neg hz] at hro
      rw [Region.offset_of_lt (by omega)] at hro
      simp only [Res.ok_bind] at hro
      have hyl := m.dev.read_len _ _ _ hro
      rw [hx] at hyl
      simp at hyl
      omega
    | err e => rw [hro] at hx; simp at hx
    | panic => rw [hro] at hx; simp at hx
    | hang => rw [hro] at hx; simp at hx

/-- Reading the file `a` of the sample. -/
example : fuseStep twoMount twoCache (.read 2 1 3) = .ok (.data [2, 3, 4], twoCache) :=
  (C55_mounted_read_partial two_parts two_run two_told two_read 1 3).1 (by decide) (by decide)

example : fuseStep twoMount twoCache (.read 2 5 3) = .ok (.error .EIO, twoCache) :=
  (C55_past_end_false two_run two_told two_read (by decide) 5 3).1 (by decide)

set_option maxRecDepth 20000 in
/-- A request that crosses the end: the reply continues with the byte behind the file. -/
example : fuseStep twoMount twoCache (.read 2 2 4) = .ok (.data [3, 4, 5, 6], twoCache) := by decide +kernel

/-! ## C70: a mounted image shows the packed tree -/

/-- Name and kind of an entry of the source. -/
def entryNameKind (e : FileEntry) : Str × Bool := (e.name, e.isDir)

/-- C70: mounting the image of a successful pack succeeds; then, after any history of requests, looking up the
path of an entry of the source component by component, in any letter case, finds the entry with its kind and,
for a file, its size, and reading inside a file returns its content; reading a directory to the end delivers
`.`, `..` and the entries of the source directory; and looking up any other path finds nothing. -/
theorem C70_mount_shows_tree {fs : SourceFs} {content : Path → Bytes} (hb : Bounded fs) (hf : FaithfulTo fs content)
    {faults : Faults} {pfuel : Nat} {img0 : Bytes} {s' : PackState ImgFile}
    (hpack : createImage (fileEnv fs faults) pfuel ⟨⟨img0, []⟩, []⟩ = (.ok (), s')) {fuel : Nat}
    (hfuel : SearchBudget fs.readDir fuel) (hfuel' : ∀ p l, DirOf fs.readDir p → fs.readDir p = .ok l → l.length < fuel) :
    ∃ m, mountImage (fileDev s'.dev.img) fuel = .ok (m, .new) ∧
      ∀ ops rs c, fuseRun m .new ops = .ok (rs, c) →
        (∀ recs, ReadsDir m 1 c 0 recs → ∃ l, fs.readDir [] = .ok l ∧
          (recs.map recKey).Perm ((['.'], true) :: (['.', '.'], true) :: l.map entryNameKind)) ∧
        ∀ q, q ≠ [] → PlainPath q → c.next + q.length < 2 ^ 64 →
          (∀ p e, EntryIn fs.readDir p e → SamePath (p ++ [e.name]) q →
            ∃ a c', resolvePath m c 1 q = .ok (some a, c') ∧ a.isDir = e.isDir ∧
              (e.isDir = false → a.size = e.len ∧ ∀ offset size, offset < e.len → offset + size ≤ e.len →
                fuseStep m c' (.read a.ino (offset : Nat) size) =
                  .ok (.data (((content (p ++ [e.name])).drop offset).take size), c')) ∧
              (e.isDir = true → ∀ recs, ReadsDir m a.ino c' 0 recs → ∃ l, fs.readDir (p ++ [e.name]) = .ok l ∧
                (recs.map recKey).Perm ((['.'], true) :: (['.', '.'], true) :: l.map entryNameKind))) ∧
          ((∀ p e, EntryIn fs.readDir p e → ¬ SamePath (p ++ [e.name]) q) →
            ∃ c', resolvePath m c 1 q = .ok (none, c')) := by
  obtain ⟨M, Loc, l0, hP⟩ := pack_packed hb hf hpack
  refine ⟨_, packed_mounts hP fuel, ?_⟩
  intro ops rs c hrun
  obtain ⟨hc, _⟩ := fuseRun_spec .new hrun
  have hI := hP.image.agree (offsetDev_zero _)
  have hdirs : ∀ (c : FuseCache) (ino : Nat) (p : Path) (l : Listing), c.Inv → Loc p l → l.isDir = true →
      c.table (regionOf l0) ino = some (regionOf l) → ∀ recs,
      ReadsDir ⟨offsetDev (fileDev s'.dev.img) 0, regionOf l0, fuel⟩ ino c 0 recs → ∃ lst, fs.readDir p = .ok lst ∧
        (recs.map recKey).Perm ((['.'], true) :: (['.', '.'], true) :: lst.map entryNameKind) := by
    intro c ino p l hc hl hd ht recs hrecs
    obtain ⟨lst, ds, h1, h2, h3, _, h5⟩ := hI.scan_dir hl hd
    refine ⟨lst, h2, ?_⟩
    obtain ⟨k1, _⟩ := readsDir_spec (m := ⟨offsetDev (fileDev s'.dev.img) 0, regionOf l0, fuel⟩)
      (h3 fuel (hfuel' p lst h1 h2)) hrecs hc ht
    rw [k1, List.drop_zero]
    unfold fullListing
    refine .cons _ (.cons _ ?_)
    have := h5.map (fun x => (x.1, x.2.1))
    rw [List.map_map, List.map_map, List.map_map] at this
    exact this
  refine ⟨?_, ?_⟩
  · intro recs hrecs
    exact hdirs c 1 [] l0 hc hP.root hP.rootDir rfl recs hrecs
  · intro q hq hplain hnum
    have hw := hI.lookup_path (m := ⟨offsetDev (fileDev s'.dev.img) 0, regionOf l0, fuel⟩) hP.distinct hfuel q hq hplain
      (c := c) (ino := 1) hP.root hP.rootDir hc rfl hnum
    refine ⟨?_, ?_⟩
    · intro p e he hs
      rcases hw with ⟨r, e', d, l', i, c', g1, g2, g3, g4, g5, g6, g7, g8, g9, g10, g11⟩ | ⟨g1, _⟩
      · obtain ⟨k1, k2⟩ := entry_unique hP.distinct he g1 (hs.trans (by simpa using g2.symm))
        subst k2
        rw [List.nil_append] at k1 g9
        subst k1
        refine ⟨_, c', g3, rfl, ?_, ?_⟩
        · intro hfile
          refine ⟨g11 hfile, ?_⟩
          intro offset size h1 h2
          obtain ⟨f1, f2⟩ := hI.files _ _ g9 (by rw [g10, hfile])
          obtain ⟨s1, s2⟩ := hI.small _ _ g9
          have hlen := g11 hfile
          have hread := readDataOffset_holds g7 s1 s2 f1 f2 (size := size) (offset := offset) (by omega) (by omega)
          simp only [fuseStep, fuseRead, newFileAttr, entry_of_lookup g4 g6, if_neg (by omega : ¬ ((offset : Int) < 0)),
            Int.toNat_natCast, hread, Res.ok_bind, Res.pure_eq]
        · intro hdir recs hrecs
          refine hdirs c' i _ l' g4 g9 (by rw [g10, hdir]) ?_ recs hrecs
          rw [table_of_lookup g4 g6]
          unfold DiskData.direntTable
          rw [g8, hdir, g7]; rfl
      · exact absurd hs (g1 p e (by rw [List.nil_append]; exact he))
    · intro hno
      rcases hw with ⟨r, e', d, l', i, c', g1, g2, _⟩ | ⟨_, g1⟩
      · exact absurd (by simpa using g2) (hno r e' (by simpa using g1))
      · exact g1

/-- The sample tree can be packed and mounted; `a/C` is found and read. -/
example (img0 : Bytes) : ∃ s' m a c', createImage (fileEnv sampleFs' (fun _ => none)) 2 ⟨⟨img0, []⟩, []⟩ = (.ok (), s') ∧
    mountImage (fileDev s'.dev.img) 3 = .ok (m, .new) ∧ resolvePath m .new 1 [['a'], ['C']] = .ok (some a, c') ∧
    a.isDir = false ∧ a.size = 3 ∧ fuseStep m c' (.read a.ino 1 2) = .ok (.data [2, 3], c') := by
  obtain ⟨s', h⟩ := sample_packs img0
  obtain ⟨m, h1, h2⟩ := C70_mount_shows_tree sample'_bounded sample'_faithful h sample_budget
    (fun p l a b => Nat.lt_of_succ_le (sample_scanFuel p l a b))
  obtain ⟨_, h3⟩ := h2 [] [] .new rfl
  obtain ⟨h4, _⟩ := h3 [['a'], ['C']] (by decide) (by unfold PlainPath; decide) (by decide)
  obtain ⟨a, c', g1, g2, g3, _⟩ := h4 [['A']] ⟨['c'], false, 3⟩ ((sample_entries _ _).2 (.inr (.inr ⟨rfl, rfl⟩)))
    (by unfold SamePath; decide)
  obtain ⟨g4, g5⟩ := g3 rfl
  exact ⟨s', m, a, c', h, h1, g1, g2, g4, g5 1 2 (by decide) (by decide)⟩

end Xdvdfs.Props
