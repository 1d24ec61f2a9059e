import Verif.Proof.Fuse
import Verif.Proof.Repack
import Verif.Proof.Unpack
import Verif.Proof.Copier

/-!
# A mounted packed image
-/

namespace Xdvdfs
open Spec Props

variable {rd : ReadDir} {content : Path → Bytes} {dev : Dev} {M : PathMap TabWriter} {Loc : Path → Listing → Prop}

/-- A device that agrees on low offsets stores the same tree. -/
theorem Img.agree {dev' : Dev} (h : Img rd content dev M Loc) (ha : AgreeLow dev' dev) : Img rd content dev' M Loc := by
  refine ⟨⟨?_, h.small⟩, ?_⟩
  · intro p l hl hd
    obtain ⟨hdir, lst, w, r, n, n', h1, h2, h3, h4, ⟨h5, sz, h6, h7, h8⟩, h9⟩ := h.dirs p l hl hd
    refine ⟨hdir, lst, w, r, n, n', h1, h2, h3, h4, ⟨?_, sz, h6, h7, h8⟩, h9⟩
    obtain ⟨sz', g1, g2, g3, _⟩ := C22_size_agrees h3 h4
    rw [h6] at g1; cases g1
    intro o k hk
    have := (regionOf l).sector.toNat_lt
    rw [ha _ _ (by rw [g3] at hk; unfold roundUp at hk; omega)]
    exact h5 o k hk
  · intro p l hl hd
    obtain ⟨h1, h2⟩ := h.files p l hl hd
    obtain ⟨s1, s2⟩ := h.small p l hl
    refine ⟨h1, ?_⟩
    intro o k hk
    rw [ha _ _ (by omega)]
    exact h2 o k hk

/-! ## Names -/

theorem trimSlashes_plain {n : Str} (h : '/' ∉ n) : trimSlashes n = n := by
  cases n with
  | nil => rfl
  | cons c cs =>
    have : c ≠ '/' := by intro hc; exact h (by simp [hc])
    unfold trimSlashes
    split
    · rename_i hc; simp at hc; exact absurd hc.1 this
    · rfl

theorem walkPath_plain (dev : Dev) (tab : Region) (fuel : Nat) {n : Str} (h0 : n ≠ []) (h : '/' ∉ n) :
    walkPath dev tab n fuel = findDirent dev tab n fuel := by
  have h1 := walkPath_slash dev tab fuel (q := [n]) (by simp) (by intro s hs; rw [List.mem_singleton] at hs; subst hs; exact ⟨h0, h⟩)
  unfold walkPath at h1 ⊢
  have h2 : n ≠ ['/'] := by rintro rfl; simp at h
  have h3 : slashPath [n] = '/' :: n := by simp [slashPath]
  rw [h3] at h1
  rw [if_neg (by simp [h0])] at h1
  rw [if_neg (by simp [h0, h2])]
  have h4 : trimSlashes ('/' :: n) = trimSlashes n := rfl
  rw [h4] at h1
  rw [h1]
  simp only [walkSegments, if_true]
  cases findDirent dev tab n fuel <;> rfl

theorem findLoop_congr {dev : Dev} {tab : Region} {n n' : Str} (h : SameName n n') : ∀ (f off : Nat),
    findLoop dev tab n f off = findLoop dev tab n' f off := by
  intro f
  induction f with
  | zero => intro off; rfl
  | succ f ih =>
    intro off
    unfold findLoop
    congr 1; funext d?
    congr 1; funext d
    rw [C04_compare_total_order.2.2.2 n n' d.nameStr h]
    congr 1; funext nx
    cases nx with
    | none => rfl
    | some nx =>
      simp only
      split
      · rfl
      · congr 1; funext o; exact ih o

theorem findDirent_congr {dev : Dev} {tab : Region} {n n' : Str} (h : SameName n n') (f : Nat) :
    findDirent dev tab n f = findDirent dev tab n' f := by
  unfold findDirent
  split
  · rfl
  · congr 1; funext o; exact findLoop_congr h f o

theorem readDirent_at {dev : Dev} {off : Nat} {d : DirEnt} (h : readDirent dev off = .ok (some d)) : d.offset = off := by
  unfold readDirent at h
  obtain ⟨b, _, h⟩ := Res.bind_eq_ok.1 h
  split at h
  · cases h
  · obtain ⟨_, _, h⟩ := Res.bind_eq_ok.1 h
    cases h; rfl

theorem findLoop_offset {dev : Dev} {tab : Region} {n : Str} {d : DirEnt} : ∀ {f off : Nat},
    2048 * tab.sector.toNat ≤ off → findLoop dev tab n f off = .ok d → 2048 * tab.sector.toNat ≤ d.offset := by
  intro f
  induction f with
  | zero => intro off _ h; cases h
  | succ f ih =>
    intro off ho h
    unfold findLoop at h
    obtain ⟨d?, h1, h⟩ := Res.bind_eq_ok.1 h
    obtain ⟨d', h2, h⟩ := Res.bind_eq_ok.1 h
    cases d? with
    | none => cases h2
    | some d1 =>
      simp only [Res.ofOption_some, Res.ok.injEq] at h2
      subst h2
      obtain ⟨nx, _, h⟩ := Res.bind_eq_ok.1 h
      cases nx with
      | none =>
        cases h
        rw [readDirent_at h1]
        exact ho
      | some nx =>
        simp only at h
        split at h
        · cases h
        · obtain ⟨o, h3, h⟩ := Res.bind_eq_ok.1 h
          refine ih ?_ h
          unfold Region.offset at h3
          split at h3
          · cases h3
          · cases h3; simp only [sectorSize]; omega

theorem findDirent_offset {dev : Dev} {tab : Region} {n : Str} {d : DirEnt} {f : Nat}
    (h : findDirent dev tab n f = .ok d) : 2048 * tab.sector.toNat ≤ d.offset := by
  unfold findDirent at h
  split at h
  · cases h
  · obtain ⟨o, h3, h⟩ := Res.bind_eq_ok.1 h
    refine findLoop_offset ?_ h
    unfold Region.offset at h3
    split at h3
    · cases h3
    · cases h3; simp only [sectorSize]; omega

/-- An entry found by scanning carries its offset inside the sector. -/
theorem nextLoop_offset {dev : Dev} {d : DirEnt} : ∀ {f : Nat} {s s' : Scan}, Scan.nextLoop dev f s = .ok (some d, s') →
    d.offset < 2048 := by
  intro f
  induction f with
  | zero => intro s s' h; cases h
  | succ f ih =>
    intro s s' h
    unfold Scan.nextLoop at h
    obtain ⟨x, h1, h2⟩ := Res.bind_eq_ok.1 h
    match x with
    | .inl s1 => exact ih h2
    | .inr r =>
      cases h2
      unfold Scan.step at h1
      obtain ⟨_, ha, h1⟩ := Res.bind_eq_ok.1 h1
      have hlt : s.offset + 14 < 2048 := by
        unfold Res.assert at ha
        split at ha
        · rename_i h; simpa using h
        · cases ha
      simp only at h1
      split at h1
      · split at h1
        · obtain ⟨_, _, h1⟩ := Res.bind_eq_ok.1 h1
          cases h1
        · cases h1
      · obtain ⟨_, _, h1⟩ := Res.bind_eq_ok.1 h1
        split at h1
        · obtain ⟨_, _, h1⟩ := Res.bind_eq_ok.1 h1
          cases h1; simp only; omega
        · cases h1; simp only; omega

theorem nthEntry_offset {m : Mount} {d : DirEnt} : ∀ {j : Nat} {s : Scan}, nthEntry m j s = some d → d.offset < 2048 := by
  have hnext : ∀ {s s' : Scan} {d : DirEnt}, s.next m.dev m.fuel = .ok (some d, s') → d.offset < 2048 := by
    intro s s' d h
    unfold Scan.next at h
    split at h
    · cases h
    · exact nextLoop_offset h
  intro j
  induction j with
  | zero =>
    intro s h
    unfold nthEntry at h
    split at h
    · rename_i hn; cases h; exact hnext hn
    · cases h
  | succ j ih =>
    intro s h
    unfold nthEntry at h
    split at h
    · exact ih h
    · cases h

/-- Every record after the first two is for an entry. -/
theorem readdir_record {m : Mount} {c c' : FuseCache} {ino : Nat} {offset : Int} {full : List DirRec → DirRec → Bool}
    {recs : List DirRec} (hc : c.Inv) (h : fuseStep m c (.readdir ino offset full) = .ok (.dir recs, c')) {r : DirRec}
    (hr : r ∈ recs) (hn : 3 ≤ r.next) : ∃ tab d, c.table m.root ino = some tab ∧
      tableEntry m tab (r.next - 3) = some d ∧ c'.byInode.lookup r.ino = some d := by
  simp only [fuseStep, fuseReaddir] at h
  split at h
  · cases h
  · rename_i tab ht
    split at h
    · cases h
    · cases h
    · cases h
    · rename_i s hs
      split at h
      · cases h
      · rename_i recs0 hdots
        split at h
        · cases h
        · cases h
        · cases h
        · rename_i idx s' hskip
          obtain ⟨_, _, g3⟩ := addRecords_spec hc h
          obtain ⟨k, e1, e2⟩ := skip_nth hskip
          rcases g3 recs rfl r hr with hin | ⟨j, d, f1, f2, f3⟩
          · have := dotRecords_next hdots r hin
            omega
          · refine ⟨tab, d, ht, ?_, f3⟩
            simp only [tableEntry, hs]
            rw [show r.next - 3 = k + j by omega]
            exact e2 _ _ f2

/-! ## Looking up paths -/

/-- A file that is found has the listed length. -/
theorem Img.find_len (h : Img rd content dev M Loc) {p : Path} {l : Listing} (hl : Loc p l) (hd : l.isDir = true)
    {name : Str} {fuel : Nat} (hf : SearchBudget rd fuel) {lst : List FileEntry} (hr : rd p = .ok lst) {e : FileEntry}
    (he : e ∈ lst) (hs : SameName e.name name) (hfile : e.isDir = false) {d : DirEnt}
    (hfind : findDirent dev (regionOf l) name fuel = .ok d) : d.node.dirent.data.size.toNat = e.len := by
  obtain ⟨hdir, lst', w, r, n, n', h1, h2, h3, h4, h5, h6⟩ := h.dirs p l hl hd
  rw [hr] at h1; cases h1
  obtain ⟨c1, _⟩ := C23_lookup h3 h4 h5 name
  obtain ⟨d', l', g1, _, g3, _⟩ := c1 (itemOf M p e) (List.mem_map_of_mem he) hs
  have hb := hf p lst hdir hr
  rw [g1 fuel (by simpa using hb)] at hfind
  cases hfind
  rw [g3, itemOf_stored (h2 e he) hfile]

theorem entry_of_lookup {c : FuseCache} (hc : c.Inv) {i : Nat} {d : DirEnt} (h : c.byInode.lookup i = some d) :
    c.entry i = .value d := by
  unfold FuseCache.entry
  have := (hc.range _ _ h).1
  rw [if_neg (by omega), h]

theorem table_of_lookup {c : FuseCache} (hc : c.Inv) {i : Nat} {d : DirEnt} (h : c.byInode.lookup i = some d)
    (root : Region) : c.table root i = d.node.dirent.direntTable := by
  unfold FuseCache.table
  have := (hc.range _ _ h).1
  rw [if_neg (by omega), h]
  rfl

theorem Img.lookup_path {m : Mount} (h : Img rd content m.dev M Loc) (hdist : AllDistinct rd)
    (hf : SearchBudget rd m.fuel) : ∀ (q : Path), q ≠ [] → PlainPath q → ∀ {p : Path} {l : Listing} {c : FuseCache} {ino : Nat},
    Loc p l → l.isDir = true → c.Inv → c.table m.root ino = some (regionOf l) → c.next + q.length < 2 ^ 64 →
    (∃ r e d l' i c', EntryIn rd (p ++ r) e ∧ SamePath (r ++ [e.name]) q ∧
      resolvePath m c ino q = .ok (some (newFileAttr i d.node.dirent.data.size.toNat e.isDir), c') ∧
      c'.Inv ∧ c.Ext c' ∧ c'.byInode.lookup i = some d ∧
      d.node.dirent.data = regionOf l' ∧ d.node.dirent.isDirectory = e.isDir ∧
      Loc (p ++ r ++ [e.name]) l' ∧ l'.isDir = e.isDir ∧ (e.isDir = false → d.node.dirent.data.size.toNat = e.len)) ∨
    ((∀ r e, EntryIn rd (p ++ r) e → ¬ SamePath (r ++ [e.name]) q) ∧ ∃ c', resolvePath m c ino q = .ok (none, c')) := by
  intro q
  induction q with
  | nil => intro hq; exact absurd rfl hq
  | cons s qs ih =>
    intro _ hplain p l c ino hl hd hc ht hnum
    obtain ⟨lst, hdir, hrd, hcase⟩ := h.find hl hd s hf
    have hfirst : ∀ r e, EntryIn rd (p ++ r) e → SamePath (r ++ [e.name]) (s :: qs) →
        (r = [] ∧ qs = [] ∧ e ∈ lst ∧ SameName e.name s) ∨
        (∃ e1 r', r = e1.name :: r' ∧ e1 ∈ lst ∧ e1.isDir = true ∧ SameName e1.name s ∧
          SamePath (r' ++ [e.name]) qs) := by
      intro r e he hs
      cases r with
      | nil =>
        left
        obtain ⟨_, l2, g1, g2⟩ := he
        rw [List.append_nil, hrd] at g1
        cases g1
        obtain ⟨k1, k2⟩ := samePath_cons.1 hs
        simp [SamePath] at k2
        exact ⟨rfl, k2, g2, k1⟩
      | cons a r' =>
        right
        obtain ⟨g1, _⟩ := he
        obtain ⟨_, l2, e1, g2, g3, g4, g5⟩ := DirOf.split g1 rfl
        rw [hrd] at g2
        cases g2
        obtain ⟨k1, k2⟩ := samePath_cons.1 hs
        exact ⟨e1, r', by rw [g5], g3, g4, by rw [g5]; exact k1, k2⟩
    have hs0 := hplain s (by simp)
    have hwalk := walkPath_plain m.dev (regionOf l) m.fuel hs0.1 hs0.2
    rcases hcase with ⟨e1, d, l', he1, hs1, hfind, hn1, hr1, hk1, hloc, hk2⟩ | ⟨hno, hfind⟩
    · have huniq : ∀ e ∈ lst, SameName e.name s → e = e1 := fun e he hs =>
        distinct_unique (hdist p lst hdir hrd) he he1 (hs.trans hs1.symm)
      simp only [List.length_cons] at hnum
      obtain ⟨i, c1, a1, a2⟩ := getOrAssign_succeeds (c := c) d (by omega)
      obtain ⟨a3, a4, a5⟩ := getOrAssign_spec hc a1
      have hstep : fuseStep m c (.lookup ino (some s)) =
          .ok (.entry (newFileAttr i d.node.dirent.data.size.toNat e1.isDir), c1) := by
        simp only [fuseStep, fuseLookup, ht, hwalk, hfind, a1, Res.ok_bind, hk1, Res.pure_eq]
      by_cases hqs : qs = []
      · left
        subst hqs
        refine ⟨[], e1, d, l', i, c1, by rw [List.append_nil]; exact ⟨hdir, lst, hrd, he1⟩,
          samePath_cons.2 ⟨hs1, rfl⟩, ?_, a3, a4, a5, hr1, hk1, by rw [List.append_nil]; exact hloc, hk2,
          fun hfile => h.find_len hl hd hf hrd he1 hs1 hfile hfind⟩
        simp only [resolvePath, hstep, Res.ok_bind, if_true, Res.pure_eq]
      · have hw : resolvePath m c ino (s :: qs) = resolvePath m c1 i qs := by
          simp only [resolvePath, hstep, Res.ok_bind, if_neg hqs]
          rfl
        rw [hw]
        cases hd1 : e1.isDir with
        | false =>
          right
          refine ⟨?_, ?_⟩
          · intro r e he hs
            rcases hfirst r e he hs with ⟨_, k, _⟩ | ⟨e2, r', _, k2, k3, k4, _⟩
            · exact hqs k
            · rw [huniq e2 k2 k4, hd1] at k3; cases k3
          · have htab : c1.table m.root i = none := by
              rw [table_of_lookup a3 a5]
              unfold DiskData.direntTable
              rw [hk1, hd1]; rfl
            cases qs with
            | nil => exact absurd rfl hqs
            | cons s2 qs2 =>
              refine ⟨c1, ?_⟩
              simp only [resolvePath, fuseStep, fuseLookup, htab, Res.ok_bind, Res.pure_eq]
        | true =>
          have htab : c1.table m.root i = some (regionOf l') := by
            rw [table_of_lookup a3 a5]
            unfold DiskData.direntTable
            rw [hk1, hd1, hr1]; rfl
          rcases ih hqs (fun s hs => hplain s (by simp [hs])) hloc (by rw [hk2, hd1]) a3 htab (by omega) with
            ⟨r, e, d', l2, j, c2, g1, g2, g3, g4, g5, g6, g7, g8, g9, g10⟩ | ⟨g1, g2⟩
          · left
            refine ⟨e1.name :: r, e, d', l2, j, c2, ?_, samePath_cons.2 ⟨hs1, g2⟩, g3, g4, a4.trans g5, g6, g7, g8, ?_, g10⟩
            · rw [show p ++ e1.name :: r = p ++ [e1.name] ++ r by simp]; exact g1
            · rw [show p ++ e1.name :: r = p ++ [e1.name] ++ r by simp]; exact g9
          · right
            refine ⟨?_, g2⟩
            intro r e he hs
            rcases hfirst r e he hs with ⟨_, k, _⟩ | ⟨e2, r', k1, k2, k3, k4, k5⟩
            · exact hqs k
            · have := huniq e2 k2 k4
              subst this
              subst k1
              exact g1 r' e (by rw [show p ++ [e2.name] ++ r' = p ++ e2.name :: r' by simp]; exact he) k5
    · right
      refine ⟨?_, ?_⟩
      · intro r e he hs
        rcases hfirst r e he hs with ⟨_, _, k1, k2⟩ | ⟨e2, r', _, k2, _, k4, _⟩
        · exact hno e k1 k2
        · exact hno e2 k2 k4
      · refine ⟨c, ?_⟩
        simp only [resolvePath, fuseStep, fuseLookup, ht, hwalk, hfind, Res.ok_bind, Res.pure_eq]

/-! ## Reading -/

theorem readDataOffset_parts {dev : Dev} (hp : PartsReadable dev) {d : DiskData} {b : Bytes}
    (hb : readDataAll dev d = .ok b) {size offset : Nat} (ho : offset < d.data.size.toNat)
    (hs : offset + size ≤ d.data.size.toNat) :
    readDataOffset dev d size offset = .ok ((b.drop offset).take size) := by
  have hne : d.data.size ≠ 0 := by rintro h; rw [h] at ho; simp at ho
  unfold readDataAll at hb
  rw [if_neg hne, Region.offset_of_lt (by omega)] at hb
  simp only [Res.ok_bind, Nat.add_zero] at hb
  have hl := dev.read_len _ _ _ hb
  unfold readDataOffset
  simp only [if_neg hne, Nat.min_eq_left (Nat.le_trans (Nat.le_add_left _ _) hs)]
  rw [Region.offset_of_lt ho]
  simp only [Res.ok_bind]
  exact hp _ _ _ hb offset size (by omega)

theorem readDataOffset_holds {d : DirEnt} {l : Listing} (hr : d.node.dirent.data = regionOf l) (h1 : l.sector < 2 ^ 32)
    (h2 : l.size < 2 ^ 32) {b : Bytes} (hb : b.length = l.size) (hh : HoldsAt dev (2048 * l.sector) b) {size offset : Nat}
    (ho : offset < d.node.dirent.data.size.toNat) (hs : offset + size ≤ d.node.dirent.data.size.toNat) :
    readDataOffset dev d.node.dirent size offset = .ok ((b.drop offset).take size) := by
  have hne : d.node.dirent.data.size ≠ 0 := by rintro h; rw [h] at ho; simp at ho
  unfold readDataOffset
  simp only [if_neg hne, Nat.min_eq_left (Nat.le_trans (Nat.le_add_left _ _) hs)]
  rw [Region.offset_of_lt ho]
  simp only [Res.ok_bind]
  have hsz : d.node.dirent.data.size.toNat = l.size := by rw [hr]; exact UInt32.toNat_ofNat_of_lt' h2
  have hsec : d.node.dirent.data.sector.toNat = l.sector := by rw [hr]; exact UInt32.toNat_ofNat_of_lt' h1
  have := hh offset size (by omega)
  rw [hsec]
  exact this

theorem readDataAll_length {d : DiskData} {b : Bytes} (hb : readDataAll dev d = .ok b) : b.length = d.data.size.toNat := by
  unfold readDataAll at hb
  split at hb
  · rename_i h; cases hb; rw [h]; rfl
  · obtain ⟨o, _, hb⟩ := Res.bind_eq_ok.1 hb
    exact dev.read_len _ _ _ hb

/-! ## The counter -/

theorem getOrAssign_next {c c' : FuseCache} {d : DirEnt} {i : Nat} (hc : c.next < 2 ^ 64)
    (h : c.getOrAssign d = .ok (i, c')) : c'.next < 2 ^ 64 := by
  unfold FuseCache.getOrAssign at h
  split at h
  · cases h; exact hc
  · split at h
    · cases h; assumption
    · cases h

theorem addRecords_next {m : Mount} {full : List DirRec → DirRec → Bool} : ∀ {f idx : Nat} {s : Scan} {recs : List DirRec}
    {c c' : FuseCache} {reply : FuseReply}, c.next < 2 ^ 64 → addRecords m full f idx s recs c = .ok (reply, c') →
    c'.next < 2 ^ 64 := by
  intro f
  induction f with
  | zero => intro idx s recs c c' reply _ h; cases h
  | succ f ih =>
    intro idx s recs c c' reply hc h
    unfold addRecords at h
    split at h
    · obtain ⟨⟨i, c1⟩, h1, h2⟩ := Res.bind_eq_ok.1 h
      have := getOrAssign_next hc h1
      simp only at h2
      split at h2
      · cases h2; exact this
      · exact ih this h2
    · cases h; exact hc
    · cases h; exact hc
    · cases h
    · cases h

theorem fuseStep_next {m : Mount} {c c' : FuseCache} {op : FuseOp} {reply : FuseReply} (hc : c.next < 2 ^ 64)
    (h : fuseStep m c op = .ok (reply, c')) : c'.next < 2 ^ 64 := by
  cases op with
  | lookup parent name =>
    simp only [fuseStep, fuseLookup] at h
    split at h
    · cases h; exact hc
    · split at h
      · cases h; exact hc
      · split at h
        · obtain ⟨⟨i, c1⟩, h1, h2⟩ := Res.bind_eq_ok.1 h
          have := getOrAssign_next hc h1
          cases h2; exact this
        · cases h; exact hc
        · cases h
        · cases h
  | getattr ino => cases h; exact hc
  | «open» ino flags => cases h; exact hc
  | read ino offset size =>
    simp only [fuseStep] at h
    obtain ⟨x, _, h2⟩ := Res.bind_eq_ok.1 h
    cases h2; exact hc
  | opendir ino flags => cases h; exact hc
  | access ino => cases h; exact hc
  | readdir ino offset full =>
    simp only [fuseStep, fuseReaddir] at h
    split at h
    · cases h; exact hc
    · split at h
      · cases h
      · cases h
      · cases h; exact hc
      · split at h
        · cases h; exact hc
        · split at h
          · cases h
          · cases h
          · cases h; exact hc
          · exact addRecords_next hc h

theorem fuseRun_next {m : Mount} : ∀ {ops : List FuseOp} {c c' : FuseCache} {rs : List FuseReply}, c.next < 2 ^ 64 →
    fuseRun m c ops = .ok (rs, c') → c'.next < 2 ^ 64 := by
  intro ops
  induction ops with
  | nil => intro c c' rs hc h; cases h; exact hc
  | cons op ops ih =>
    intro c c' rs hc h
    unfold fuseRun at h
    obtain ⟨⟨r, c1⟩, h1, h2⟩ := Res.bind_eq_ok.1 h
    obtain ⟨⟨rs', c2⟩, h3, h4⟩ := Res.bind_eq_ok.1 h2
    cases h4
    exact ih (fuseStep_next hc h1) h3

end Xdvdfs
