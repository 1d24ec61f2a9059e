import Verif.Props.ReadCli

/-!
# What the reading commands print: C123, C124
-/

namespace Xdvdfs.Props

open Spec

variable {h : Host} {fs : HostFs} {image : Str} {img : Bytes} {S : SourceFs} {content : Path → Bytes}

theorem command_on (hi : StoredTree h fs image img S content) {H : Type} (rd : Reader H) (shown : Str) (cmd : ReadCmd) :
    readCommand h rd fs image shown cmd = readOn rd (fileDev img) shown cmd := by
  obtain ⟨⟨disc, h1, h2⟩, _⟩ := hi
  exact readCommand_disc h1 h2 shown cmd

/-! ## C123 -/

/-- C123, `ls`: for a directory of the tree, named in any letter case, the command prints exactly the names in it, one
to a line, with or without `--scan`, and succeeds; for a file and for any other path it prints nothing and fails. -/
theorem C123_ls (hi : StoredTree h fs image img S content) {H : Type} (rd : Reader H) (hwf : ScanFuel S.readDir rd.fuel)
    (hsb : SearchBudget S.readDir rd.fuel) (shown : Str) (scan : Bool) :
    (∀ p s, DirOf S.readDir p → NamesDir p s → ∃ lst, ∃ names : List Str, S.readDir p = .ok lst ∧
      readCommand h rd fs image shown (.ls s scan) = ⟨names.map .text, .ok ()⟩ ∧
      names.Perm (lst.map FileEntry.name)) ∧
    (∀ q, q ≠ [] → PlainPath q → (∀ p, DirOf S.readDir p → ¬ SamePath p q) →
      ∃ e, readCommand h rd fs image shown (.ls (slashPath q) scan) = ⟨[], .err e⟩) := by
  simp only [command_on hi]
  obtain ⟨_, ⟨faults, pf, img0, s', k1, rfl⟩, hb, hf, hnames⟩ := hi
  refine ⟨?_, ?_⟩
  · intro p s hp hs
    obtain ⟨lst, names, g1, g2, g3⟩ := (C76_ls hb hf k1 true scan hwf hsb).1 p s hp hs
    exact ⟨lst, names, g1, (lsOn_eq rd _ _ _).2 _ g2, g3⟩
  · intro q hq hpl hno
    obtain ⟨M, Loc, l0, hP⟩ := pack_packed hb hf k1
    have hroot : (VolDesc.new (regionOf l0)).root = regionOf l0 := rfl
    have key : ∃ e, walkPath (fileDev s'.dev.img) (regionOf l0) (slashPath q) rd.fuel = .err e ∨
        ∃ d, walkPath (fileDev s'.dev.img) (regionOf l0) (slashPath q) rd.fuel = .ok d ∧
          d.node.dirent.direntTable = none := by
      by_cases hex : ∃ p e, EntryIn S.readDir p e ∧ SamePath (p ++ [e.name]) q
      · obtain ⟨p, e, he, hs⟩ := hex
        have hk : e.isDir = false := by
          cases hk : e.isDir with
          | false => rfl
          | true =>
            obtain ⟨hd, lst, hl, hm⟩ := he
            exact absurd hs (hno _ (.sub hd hl hm hk))
        obtain ⟨d, l', g1, g2, g3, g4, g5, g6⟩ := hP.image.entry_lookup hP.distinct hP.root hP.rootDir he hs hpl hsb
        exact ⟨.other, .inr ⟨d, g1, by unfold DiskData.direntTable; rw [g4, hk]; rfl⟩⟩
      · rcases hP.image.findsNothingElse hP.distinct hP.root hP.rootDir q rd.fuel hq hpl
          (fun p e he hs => hex ⟨p, e, he, hs⟩) hsb with g | g
        · exact ⟨_, .inl g⟩
        · exact ⟨_, .inl g⟩
    have hne := slashPath_ne hq hpl
    obtain ⟨e, g | ⟨d, g1, g2⟩⟩ := key
    · refine ⟨e, ?_⟩
      cases scan with
      | true =>
        simp only [readOn, lsOn, if_true, lsScanInit, hP.volume, Res.ok_bind, hroot]
        rw [if_neg hne, g]; rfl
      | false =>
        simp only [readOn, lsOn, Bool.false_eq_true, if_false, cmdLs, openVolume, openImage, if_true, hP.volume,
          Res.ok_bind, Res.pure_eq, hroot]
        rw [if_neg hne, g]; rfl
    · refine ⟨.other, ?_⟩
      cases scan with
      | true =>
        simp only [readOn, lsOn, if_true, lsScanInit, hP.volume, Res.ok_bind, hroot]
        rw [if_neg hne, g1]
        simp only [Res.ok_bind, g2, Res.ofOption]; rfl
      | false =>
        simp only [readOn, lsOn, Bool.false_eq_true, if_false, cmdLs, openVolume, openImage, if_true, hP.volume,
          Res.ok_bind, Res.pure_eq, hroot]
        rw [if_neg hne, g1]
        simp only [Res.ok_bind, g2, Res.ofOption]; rfl

/-- C123, `tree`: the command prints one line for every entry of the tree, with its path and size, and then the number of
files, their total size and the path of the image, and succeeds. -/
theorem C123_tree (hi : StoredTree h fs image img S content) {H : Type} (rd : Reader H) (shown : Str) :
    ∃ all, AllBelow S.readDir [] all ∧
      (((all.filter (fun x => !x.2.isDir)).map (fun x => x.2.len)).sum < 2 ^ 64 → all.length + 1 < rd.fuel →
        ∃ lines, lines.Perm (all.map entryLine) ∧
          readCommand h rd fs image shown .tree =
            ⟨(lines ++ [summaryLine (all.filter (fun x => !x.2.isDir)).length
              ((all.filter (fun x => !x.2.isDir)).map (fun x => x.2.len)).sum shown]).map .text, .ok ()⟩) := by
  simp only [command_on hi]
  obtain ⟨_, ⟨faults, pf, img0, s', k1, rfl⟩, hb, hf, hnames⟩ := hi
  obtain ⟨all, h1, h2, h3⟩ := C75_tree hb hf k1 rd.checked true shown
  refine ⟨all, ⟨h1, h2⟩, fun hs hfu => ?_⟩
  obtain ⟨lines, h4, h5⟩ := h3 hs
  refine ⟨lines, h4, ?_⟩
  simp only [readOn, h5 _ hfu, Printed.ofRes]

/-- C123, `info` (part): without a path the command prints the volume with the place of the root directory; if no
directory table is larger than 64 KiB, it prints for `/` a true listing and for an entry the entry truly, followed, for a
directory, by a true listing of it; for any other path it prints nothing and fails. -/
theorem C123_info_partial (hi : StoredTree h fs image img S content) {H : Type} (rd : Reader H)
    (hwf : ScanFuel S.readDir rd.fuel) (hsb : SearchBudget S.readDir rd.fuel) (shown : Str) :
    (∃ vol, readVolume (fileDev img) = .ok vol ∧ readCommand h rd fs image shown (.info none) =
      ⟨[.info (.volume true vol.filetime vol.root.sector.toNat vol.root.size.toNat)], .ok ()⟩) ∧
    ((∀ p l, DirOf S.readDir p → S.readDir p = .ok l → SmallListing l) →
      (∃ lst infos, S.readDir [] = .ok lst ∧
        readCommand h rd fs image shown (.info (some ['/'])) = ⟨[.info (.entries infos)], .ok ()⟩ ∧
        TrueListing (fileDev img) lst infos) ∧
      ∀ p e q, EntryIn S.readDir p e → SamePath (p ++ [e.name]) q → PlainPath q →
        ∃ i d rest, readCommand h rd fs image shown (.info (some (slashPath q))) =
            ⟨[.info (.entries (i :: rest))], .ok ()⟩ ∧
          i.name = e.name ∧ readDirent (fileDev img) i.offset = .ok (some d) ∧ Describes i d ∧
          (e.isDir = false → rest = [] ∧ i.size = e.len) ∧
          (e.isDir = true → ∃ lst, S.readDir (p ++ [e.name]) = .ok lst ∧ TrueListing (fileDev img) lst rest)) ∧
    ∀ q, q ≠ [] → PlainPath q → (∀ p e, EntryIn S.readDir p e → ¬ SamePath (p ++ [e.name]) q) →
      ∃ e, readCommand h rd fs image shown (.info (some (slashPath q))) = ⟨[], .err e⟩ := by
  simp only [command_on hi]
  obtain ⟨_, ⟨faults, pf, img0, s', k1, rfl⟩, hb, hf, hnames⟩ := hi
  obtain ⟨M, Loc, l0, hP⟩ := pack_packed hb hf k1
  have hroot : (VolDesc.new (regionOf l0)).root = regionOf l0 := rfl
  refine ⟨⟨_, hP.volume, ?_⟩, ?_, ?_⟩
  · have hv : (VolDesc.new (regionOf l0)).isValid = true := by
      unfold VolDesc.isValid VolDesc.new; simp
    simp only [readOn, cmdInfo, openVolume, openImage, if_true, hP.volume, Res.ok_bind, Res.pure_eq, Printed.ofRes, hv]
  · intro hsm
    obtain ⟨⟨lst, infos, g1, g2, g3⟩, g4⟩ := C59_info_partial hb hf k1 hsm rd.checked true hwf hsb
    refine ⟨⟨lst, infos, g1, by simp only [readOn, g2, Printed.ofRes], g3⟩, ?_⟩
    intro p e q he hs hq
    obtain ⟨i, d, rest, m1, m2⟩ := g4 p e q he hs hq
    exact ⟨i, d, rest, by simp only [readOn, m1, Printed.ofRes], m2⟩
  · intro q hq hpl hno
    have hne := slashPath_ne hq hpl
    have key : ∀ e, walkPath (fileDev s'.dev.img) (regionOf l0) (slashPath q) rd.fuel = .err e →
        readOn rd (fileDev s'.dev.img) shown (.info (some (slashPath q))) = ⟨[], .err e⟩ := by
      intro e g
      simp only [readOn, cmdInfo, openVolume, openImage, if_true, hP.volume, Res.ok_bind, Res.pure_eq, hroot]
      rw [if_neg hne, g]; rfl
    rcases hP.image.findsNothingElse hP.distinct hP.root hP.rootDir q rd.fuel hq hpl hno hsb with g | g
    · exact ⟨_, key _ g⟩
    · exact ⟨_, key _ g⟩

/-- C123 is false for `info`: on a directory with more than 4096 entries the command panics, or prints for some entry a
child offset that is not the one its link designates. -/
theorem C123_info_false (hi : StoredTree h fs image img S content) {H : Type} (rd : Reader H)
    (hwf : ScanFuel S.readDir rd.fuel) (hsb : SearchBudget S.readDir rd.fuel) (shown : Str) {p : Path}
    (hp : DirOf S.readDir p) {lst : List FileEntry} (hlst : S.readDir p = .ok lst) (hbig : 4096 < lst.length) {s : Str}
    (hs : NamesDir p s) :
    (rd.checked = true → (readCommand h rd fs image shown (.info (some s))).outcome = .panic) ∧
    (rd.checked = false → ∃ infos,
      readCommand h rd fs image shown (.info (some s)) = ⟨[.info (.entries infos)], .ok ()⟩ ∧
      ∃ i ∈ infos, ∃ d, i.offset = d.offset ∧ readDirent (fileDev img) d.offset = .ok (some d) ∧
        ((∃ o, i.left = some o ∧ o ≠ 4 * d.node.left.toNat) ∨ (∃ o, i.right = some o ∧ o ≠ 4 * d.node.right.toNat))) := by
  simp only [command_on hi]
  obtain ⟨_, ⟨faults, pf, img0, s', k1, rfl⟩, hb, hf, hnames⟩ := hi
  obtain ⟨g1, infos, g2, g3⟩ := C59_info_false hb hf k1 true hwf hsb hp hlst hbig hs
  refine ⟨fun hc => ?_, fun hc => ⟨infos, ?_, g3⟩⟩
  · simp only [readOn, hc, g1, Printed.ofRes]
  · simp only [readOn, hc, g2, Printed.ofRes]

/-- C123, `md5` without a path: the command succeeds; every file of the tree has exactly one line, with the hash of its
content; every line is for an entry of the tree. -/
theorem C123_md5_all (hi : StoredTree h fs image img S content) {H : Type} (hash : Bytes → H) :
    ∃ (n : Nat) (lines : List (H × Str)), (∀ (rd : Reader H) shown, rd.hash = hash → n < rd.fuel →
        readCommand h rd fs image shown (.md5 none) = ⟨lines.map (fun x => .digest x.1 x.2), .ok ()⟩) ∧
      (∀ p e, EntryIn S.readDir p e → e.isDir = false →
        lines.filter (fun x => x.2 = slashPath (p ++ [e.name])) =
          [(hash (content (p ++ [e.name])), slashPath (p ++ [e.name]))]) ∧
      ∀ x ∈ lines, ∃ p e, EntryIn S.readDir p e ∧ x.2 = slashPath (p ++ [e.name]) := by
  simp only [command_on hi]
  obtain ⟨_, ⟨faults, pf, img0, s', k1, rfl⟩, hb, hf, hnames⟩ := hi
  obtain ⟨vol, n, lines, g1, g2, g3, g4⟩ := C67_md5_all hash hb hf k1 (fun p e he => (hnames p e he).2.1)
  refine ⟨n, lines, fun rd shown hh hk => ?_, g3, g4⟩
  simp only [readOn, md5On, g1, hh, g2 _ hk]

/-- C123, `md5` of a file: the command prints one line with the hash of the content and the path as it was given. -/
theorem C123_md5_file (hi : StoredTree h fs image img S content) {H : Type} (rd : Reader H)
    (hsb : SearchBudget S.readDir rd.fuel) (shown : Str) {p : Path} {e : FileEntry} (he : EntryIn S.readDir p e)
    (hd : e.isDir = false) {q : Path} (hs : SamePath (p ++ [e.name]) q) (hq : PlainPath q) :
    readCommand h rd fs image shown (.md5 (some (slashPath q))) =
      ⟨[.digest (rd.hash (content (p ++ [e.name]))) (slashPath q)], .ok ()⟩ := by
  simp only [command_on hi]
  obtain ⟨_, ⟨faults, pf, img0, s', k1, rfl⟩, hb, hf, hnames⟩ := hi
  obtain ⟨vol, g1, g2⟩ := C67_md5_file rd.hash hb hf k1
  simp only [readOn, md5On, g1, g2 p e q _ he hd hs hq hsb, List.map_cons, List.map_nil]

/-! ## C124 -/

/-- The lines `md5` prints for a directory. -/
theorem md5_below {M : PathMap TabWriter} {Loc : Path → Listing → Prop} {l0 l : Listing} {p : Path} {H : Type}
    (hash : Bytes → H) (hP : Packed S content img M Loc l0) (hl : Loc p l) (hdir : l.isDir = true) {base : Str}
    (hbase : base ≠ []) :
    ∃ (all : List (Path × FileEntry)) (n : Nat) (lines : List (H × Str)), AllBelow S.readDir p all ∧
      (∀ k, n < k → ∃ tree, fileTree (fileDev img) (regionOf l) k = .ok tree ∧
        md5Tree hash (fileDev img) base tree [] = (.ok (), lines)) ∧
      (lines.map Prod.snd).Perm (all.map fun x =>
        base ++ (if x.1 = [] then [] else ['/']) ++ slashPath (x.1 ++ [x.2.name])) ∧
      ∀ x ∈ all, x.2.isDir = false → (hash (content (p ++ (x.1 ++ [x.2.name]))),
        base ++ (if x.1 = [] then [] else ['/']) ++ slashPath (x.1 ++ [x.2.name])) ∈ lines := by
  obtain ⟨Dp, d1, d2⟩ := hP.finite
  obtain ⟨all, a1, a2, n, t, a3, a4⟩ := hP.image.listsBelow hP.distinct d1 d2 hl hdir
  have hp : DirOf S.readDir p := (hP.image.dirs p l hl hdir).1
  obtain ⟨m, hm⟩ := finite_lengths (rd := S.readDir) (Dp := Dp)
  have hread : ∀ x ∈ t, ∃ b, readDataAll (fileDev img) x.2.node.dirent = .ok b := by
    intro x hx
    have ht := a3 (n + m + 1) (by omega)
    obtain ⟨p', hp'⟩ := hP.image.located (wf := n + m + 1)
      (fun p lst h1 h2 => Nat.lt_of_lt_of_le (hm p ((d2 p).2 h1) lst h2) (by omega)) _ _ _ _
      (by
        intro y hy
        rw [List.mem_singleton] at hy
        subst hy
        exact ⟨p, l, hl, hdir, rfl⟩) (by simp) ht x hx
    exact hP.image.readable hp'
  let read : DirEnt → Bytes := fun d =>
    match readDataAll (fileDev img) d.node.dirent with
    | .ok b => b
    | _ => []
  have hr : ∀ x ∈ t, readDataAll (fileDev img) x.2.node.dirent = .ok (read x.2) := by
    intro x hx
    obtain ⟨b, hb⟩ := hread x hx
    simp only [read, hb]
  have hlines := md5Tree_eq hash (base := base) read t [] hr
  simp only [if_neg hbase, List.nil_append] at hlines
  have hname : ∀ (k : Str) (r : Path) (nm : Str), k = slashPath r →
      (if k = [] then base else base ++ '/' :: k) ++ '/' :: nm =
        base ++ (if r = [] then [] else ['/']) ++ slashPath (r ++ [nm]) := by
    rintro k r nm rfl
    cases r with
    | nil => simp [slashPath]
    | cons a r => simp [slashPath]
  refine ⟨all, n, _, ⟨a1, fun q e => ?_⟩, fun k hk => ⟨t, a3 k hk, hlines⟩, ?_, ?_⟩
  · rw [a2, entryIn_below hp]
  · have h1 := a4.map (fun k => (if k.1 = [] then base else base ++ '/' :: k.1) ++ '/' :: k.2.1)
    rw [List.map_map, List.map_map] at h1
    rw [List.map_map]
    refine List.Perm.trans (List.Perm.of_eq ?_) (h1.trans (List.Perm.of_eq ?_))
    · rfl
    · exact List.map_congr_left fun x _ => hname _ x.1 _ rfl
  · rintro ⟨r, e⟩ hx hk
    simp only at hk ⊢
    obtain ⟨⟨par, d⟩, m1, m2⟩ := List.mem_map.1 (a4.mem_iff.2 (List.mem_map_of_mem hx))
    simp only [direntKey, entryKey, hk, Prod.mk.injEq, Bool.false_eq_true, if_false] at m2
    obtain ⟨e1, e2, e3, e4⟩ := m2
    rw [e3] at e4
    simp only [Bool.false_eq_true, if_false, Option.some.injEq, Prod.mk.injEq] at e4
    have h1 := hr _ m1
    simp only at h1
    rw [e4.2] at h1
    refine List.mem_map.2 ⟨(par, d), m1, ?_⟩
    simp only [Prod.mk.injEq]
    refine ⟨?_, ?_⟩
    · simp only [Res.ok.injEq] at h1; rw [← h1]
    · rw [e2]; exact hname _ _ _ e1

/-- What `md5` prints for a directory of the tree. -/
theorem md5_directory (hi : StoredTree h fs image img S content) {p q : Path} (hp : DirOf S.readDir p) (hq : q ≠ [])
    (hs : SamePath p q) (hpl : PlainPath q) {H : Type} (hash : Bytes → H) :
    ∃ (all : List (Path × FileEntry)) (n : Nat) (lines : List (H × Str)), AllBelow S.readDir p all ∧
      (∀ (rd : Reader H) shown, rd.hash = hash → n < rd.fuel →
        readCommand h rd fs image shown (.md5 (some (slashPath q))) =
          ⟨lines.map (fun x => .digest x.1 x.2), .ok ()⟩) ∧
      (lines.map Prod.snd).Perm (all.map fun x =>
        slashPath q ++ (if x.1 = [] then [] else ['/']) ++ slashPath (x.1 ++ [x.2.name])) ∧
      ∀ x ∈ all, x.2.isDir = false → (hash (content (p ++ (x.1 ++ [x.2.name]))),
        slashPath q ++ (if x.1 = [] then [] else ['/']) ++ slashPath (x.1 ++ [x.2.name])) ∈ lines := by
  have hon := fun rd => command_on (H := H) hi rd
  obtain ⟨_, ⟨faults, pf, img0, s', k1, rfl⟩, hb, hf, hnames⟩ := hi
  obtain ⟨M, Loc, l0, hP⟩ := pack_packed hb hf k1
  have hne : slashPath q ≠ [] := by
    cases q with
    | nil => exact absurd rfl hq
    | cons a q => simp [slashPath]
  have hall : ∃ l fl d, Loc p l ∧ l.isDir = true ∧
      walkPath (fileDev s'.dev.img) (regionOf l0) (slashPath q) fl = .ok d ∧
      d.node.dirent.direntTable = some (regionOf l) := by
    cases hp with
    | root => simp [SamePath, eq_comm] at hs; exact absurd hs hq
    | @sub p lst e g1 g2 g3 g4 =>
      obtain ⟨fl, hfl⟩ : ∃ fl, SearchBudget S.readDir fl := by
        obtain ⟨Dp, _, d2⟩ := hP.finite
        obtain ⟨m, hm⟩ := finite_lengths (rd := S.readDir) (Dp := Dp)
        refine ⟨2 * m + 4, fun p l h1 h2 => ?_⟩
        have h3 := hm p ((d2 p).2 h1) l h2
        have h4 : Nat.log2 (l.length + 1) < m + 1 := (Nat.log2_lt (by omega)).2
          (Nat.lt_of_lt_of_le (Nat.lt_two_pow_self (n := l.length + 1)) (Nat.pow_le_pow_right (by omega) (by omega)))
        omega
      obtain ⟨d, l', k1, _, k3, k4, k5, k6⟩ :=
        hP.image.entry_lookup hP.distinct hP.root hP.rootDir ⟨g1, lst, g2, g3⟩ hs hpl hfl
      exact ⟨l', fl, d, k5, by rw [k6, g4], k1, by unfold DiskData.direntTable; rw [k4, g4, k3]; rfl⟩
  obtain ⟨l, fl, d, hl, hdir, hw, ht⟩ := hall
  obtain ⟨all, n, lines, b1, b2, b3, b4⟩ := md5_below hash hP hl hdir hne
  refine ⟨all, n + fl, lines, b1, fun rd shown hh hk => ?_, b3, b4⟩
  obtain ⟨tree, t1, t2⟩ := b2 rd.fuel (by omega)
  have hw' := walkPath_mono (fuel := fl) (by rw [hw]; nofun) rd.fuel (by omega)
  rw [hon]
  simp only [readOn, md5On, hP.volume, cmdMd5, hh]
  rw [show (VolDesc.new (regionOf l0)).root = regionOf l0 from rfl, hw', hw]
  simp only [ht, t1, t2]

/-- C124 (part): `md5` of a directory, named in any letter case, succeeds.  It prints one line for every entry at and
below the directory, with the hash of its content if it is a file.  The path of an entry of the directory itself is the
path given, a slash and its name; in the path of any other entry, two slashes follow the path given. -/
theorem C124_md5_directory_partial (hi : StoredTree h fs image img S content) {p q : Path} (hp : DirOf S.readDir p)
    (hq : q ≠ []) (hs : SamePath p q) (hpl : PlainPath q) {H : Type} (hash : Bytes → H) :
    ∃ (all : List (Path × FileEntry)) (n : Nat) (lines : List (H × Str)), AllBelow S.readDir p all ∧
      (∀ (rd : Reader H) shown, rd.hash = hash → n < rd.fuel →
        readCommand h rd fs image shown (.md5 (some (slashPath q))) =
          ⟨lines.map (fun x => .digest x.1 x.2), .ok ()⟩) ∧
      (lines.map Prod.snd).Perm (all.map fun x =>
        slashPath q ++ (if x.1 = [] then [] else ['/']) ++ slashPath (x.1 ++ [x.2.name])) ∧
      ∀ x ∈ all, x.2.isDir = false → (hash (content (p ++ (x.1 ++ [x.2.name]))),
        slashPath q ++ (if x.1 = [] then [] else ['/']) ++ slashPath (x.1 ++ [x.2.name])) ∈ lines :=
  md5_directory hi hp hq hs hpl hash

/-- C124 is false: no line `md5` prints for a directory has the path of an entry of a subdirectory of it. -/
theorem C124_md5_directory_false (hi : StoredTree h fs image img S content) {p q r : Path} {e : FileEntry}
    (hp : DirOf S.readDir p) (hq : q ≠ []) (hs : SamePath p q) (hpl : PlainPath q)
    (he : EntryIn S.readDir (p ++ r) e) (hr : r ≠ []) {H : Type} (hash : Bytes → H) :
    ∃ n, ∀ (rd : Reader H) shown, rd.hash = hash → n < rd.fuel →
      (readCommand h rd fs image shown (.md5 (some (slashPath q)))).outcome = .ok () ∧
      ∀ sum, .digest sum (slashPath (q ++ r ++ [e.name])) ∉
        (readCommand h rd fs image shown (.md5 (some (slashPath q)))).lines := by
  have hnames : ∀ p e, EntryIn S.readDir p e → HostName e.name := hi.2.2.2.2
  obtain ⟨all, n, lines, b1, b2, b3, _⟩ := md5_directory hi hp hq hs hpl hash
  have hplain : ∀ (r : Path) (e : FileEntry), EntryIn S.readDir (p ++ r) e → ∀ c ∈ r ++ [e.name], '/' ∉ c := by
    intro r e he c hc
    exact entry_plain (fun p e he => (hnames p e he).2.1) he c (by
      rw [List.append_assoc]; exact List.mem_append_right _ hc)
  have hsome : ∀ {p : Path}, DirOf S.readDir p → ∀ c ∈ p, c ≠ [] := by
    intro p hp
    induction hp with
    | root => intro c hc; cases hc
    | @sub p l e h1 h2 h3 h4 ih =>
      intro c hc
      rcases List.mem_append.1 hc with hc | hc
      · exact ih c hc
      · rw [List.mem_singleton] at hc
        subst hc
        exact (hnames p e ⟨h1, l, h2, h3⟩).1
  refine ⟨n, fun rd shown hh hk => ?_⟩
  rw [b2 rd shown hh hk]
  refine ⟨rfl, fun sum hm => ?_⟩
  obtain ⟨⟨_, s⟩, hm, hx⟩ := List.mem_map.1 hm
  simp only [Line.digest.injEq] at hx
  obtain ⟨rfl, rfl⟩ := hx
  obtain ⟨⟨r', e'⟩, hm', hx⟩ := List.mem_map.1 (b3.mem_iff.1 (List.mem_map_of_mem hm))
  have he' := (b1.2 r' e').1 hm'
  simp only [List.append_assoc, slashPath_append q, List.append_cancel_left_eq] at hx
  by_cases hr' : r' = []
  · subst hr'
    simp only [if_true, List.nil_append] at hx
    have := slashPath_inj (hplain [] e' he') (hplain r e he) hx
    cases r with
    | nil => exact hr rfl
    | cons a r => simp at this
  · rw [if_neg hr'] at hx
    have h1 : ['/'] ++ slashPath (r' ++ [e'.name]) = slashPath ([] :: (r' ++ [e'.name])) := rfl
    rw [h1] at hx
    have := slashPath_inj (by
      intro c hc
      rcases List.mem_cons.1 hc with rfl | hc
      · simp
      · exact hplain r' e' he' c hc) (hplain r e he) hx
    cases r with
    | nil => exact hr rfl
    | cons a r =>
      simp only [List.cons_append, List.cons.injEq] at this
      exact hsome he.1 a (by simp) this.1.symm

/-- C124 is false for the root: `md5` fails if it is given the path `/`, which is how `ls` and `info` name the root. -/
theorem C124_md5_root_false (hi : StoredTree h fs image img S content) {H : Type} (rd : Reader H) (shown : Str) :
    readCommand h rd fs image shown (.md5 (some ['/'])) = ⟨[], .err .noDirent⟩ := by
  rw [command_on hi]
  obtain ⟨_, ⟨faults, pf, img0, s', k1, rfl⟩, hb, hf, hnames⟩ := hi
  obtain ⟨M, Loc, l0, hP⟩ := pack_packed hb hf k1
  simp only [readOn, md5On, hP.volume, cmdMd5, walkPath]
  simp

/-! ## Concrete cases -/

/-- A tree with a file in a directory in a directory: `/A/b/c`. -/
def deepTree : List (Path × List FileEntry) :=
  [([], [⟨['A'], true, 0⟩]), ([['A']], [⟨['b'], true, 0⟩]), ([['A'], ['b']], [⟨['c'], false, 2⟩])]

def deepFs : SourceFs where
  readDir p := if p = [] then .ok [⟨['A'], true, 0⟩] else if p = [['A']] then .ok [⟨['b'], true, 0⟩]
    else if p = [['A'], ['b']] then .ok [⟨['c'], false, 2⟩] else .err .io
  copy _ _ size := ([[1, 2].take size], .ok size)
  pathToString := slashPath

def deepContent : Path → Bytes := fun _ => [1, 2]

theorem deep_dirs (p : Path) : DirOf deepFs.readDir p ↔ p = [] ∨ p = [['A']] ∨ p = [['A'], ['b']] := by
  have h1 : DirOf deepFs.readDir [['A']] := DirOf.sub (e := ⟨['A'], true, 0⟩) .root rfl (by simp) rfl
  have h2 : DirOf deepFs.readDir [['A'], ['b']] := DirOf.sub (p := [['A']]) (e := ⟨['b'], true, 0⟩) h1 rfl (by simp) rfl
  constructor
  · intro h
    induction h with
    | root => simp
    | @sub p l e hp hl he hd ih =>
      rcases ih with rfl | rfl | rfl
      · cases hl; simp only [List.mem_singleton] at he; subst he; simp
      · cases hl; simp only [List.mem_singleton] at he; subst he; simp
      · cases hl; simp only [List.mem_singleton] at he; subst he; cases hd
  · rintro (rfl | rfl | rfl)
    · exact .root
    · exact h1
    · exact h2

theorem deep_entries (p : Path) (e : FileEntry) : EntryIn deepFs.readDir p e ↔
    (p = [] ∧ e = ⟨['A'], true, 0⟩) ∨ (p = [['A']] ∧ e = ⟨['b'], true, 0⟩) ∨
    (p = [['A'], ['b']] ∧ e = ⟨['c'], false, 2⟩) := by
  unfold EntryIn
  rw [deep_dirs]
  constructor
  · rintro ⟨rfl | rfl | rfl, l, h, he⟩ <;> (cases h; simp only [List.mem_singleton] at he; subst he; simp)
  · rintro (⟨rfl, rfl⟩ | ⟨rfl, rfl⟩ | ⟨rfl, rfl⟩)
    · exact ⟨.inl rfl, _, rfl, by simp⟩
    · exact ⟨.inr (.inl rfl), _, rfl, by simp⟩
    · exact ⟨.inr (.inr rfl), _, rfl, by simp⟩

theorem deep_from : ∃ img, PackedFrom img deepFs deepContent := by
  have htree : TreeOf deepFs.readDir deepTree := by
    refine ⟨by simp [deepTree], fun p l => ?_⟩
    rw [deep_dirs]
    simp only [deepTree, List.mem_cons, List.not_mem_nil, or_false, Prod.mk.injEq]
    constructor
    · rintro (⟨rfl, rfl⟩ | ⟨rfl, rfl⟩ | ⟨rfl, rfl⟩)
      · exact ⟨.inl rfl, rfl⟩
      · exact ⟨.inr (.inl rfl), rfl⟩
      · exact ⟨.inr (.inr rfl), rfl⟩
    · rintro ⟨rfl | rfl | rfl, h⟩ <;> cases h <;> simp
  have hmem : ∀ x ∈ deepTree, x.2 = [⟨['A'], true, 0⟩] ∨ x.2 = [⟨['b'], true, 0⟩] ∨ x.2 = [⟨['c'], false, 2⟩] := by
    intro x hx
    simp only [deepTree, List.mem_cons, List.not_mem_nil, or_false] at hx
    rcases hx with rfl | rfl | rfl <;> simp
  have hpack := C33_representable_tree_packs_few (fileEnv deepFs (fun _ => none)) (tree := deepTree)
    (by intro p hp; rcases (deep_dirs p).1 hp with rfl | rfl | rfl <;> exact ⟨_, rfl⟩) htree
    ⟨by decide, by intro x hx; rcases hmem x hx with h | h | h <;> rw [h] <;> simp⟩
    (by
      intro x hx
      rcases hmem x hx with h | h | h <;> rw [h] <;> refine ⟨by simp [DistinctNames], ?_⟩ <;> intro e he <;>
        simp only [List.mem_cons, List.not_mem_nil, or_false] at he <;> subst he <;>
        exact ⟨by decide, sample_chars _ (by decide), by simp⟩)
    (by intro x hx; rcases hmem x hx with h | h | h <;> rw [h] <;> (unfold FewEntries; decide))
    (fileEnv_works (fun _ e _ _ => ⟨e.len, rfl⟩)) (fuel := 3) (by decide) ⟨⟨[], []⟩, []⟩
  rcases hc : createImage (fileEnv deepFs (fun _ => none)) 3 ⟨⟨[], []⟩, []⟩ with ⟨r, s'⟩
  rw [hc] at hpack
  simp only at hpack
  subst hpack
  refine ⟨s'.dev.img, ⟨_, _, _, s', hc, rfl⟩, ?_, ?_, ?_⟩
  · intro p n
    simp only [deepFs]
    simp; omega
  · intro p e k h hd _
    rcases (deep_entries p e).1 h with ⟨rfl, rfl⟩ | ⟨rfl, rfl⟩ | ⟨rfl, rfl⟩
    · cases hd
    · cases hd
    · decide
  · intro p e h
    rcases (deep_entries p e).1 h with ⟨rfl, rfl⟩ | ⟨rfl, rfl⟩ | ⟨rfl, rfl⟩ <;> (unfold HostName; decide)

theorem twoForms_stored {img : Bytes} {S : SourceFs} {content : Path → Bytes} (hs : PackedFrom img S content)
    (disc : Bytes) :
    StoredTree ⟨[], fun _ => .none⟩ (twoForms img disc) ['x', '.', 'i', 's', 'o'] img S content := by
  refine ⟨⟨img, (twoForms_plain img disc).1, plain_disc ?_⟩, hs⟩
  obtain ⟨⟨faults, pf, img0, s', k1, rfl⟩, hb, hf, _⟩ := hs
  obtain ⟨vol, v1, _⟩ := pack_success hb hf k1
  exact volumeAt_of_read v1

theorem deep_fuel {n : Nat} (hn : 3 ≤ n) : ScanFuel deepFs.readDir n ∧ SearchBudget deepFs.readDir n := by
  refine ⟨?_, ?_⟩
  · intro p l hp hl
    rcases (deep_dirs p).1 hp with rfl | rfl | rfl <;> cases hl <;> simp <;> omega
  · intro p l hp hl
    have : Nat.log2 2 = 1 := by decide
    rcases (deep_dirs p).1 hp with rfl | rfl | rfl <;> cases hl <;> simp [this] <;> omega

/-- The hypotheses of C123 and C124 are met: on an image of the tree with the file `/A/b/c`, stored in `x.iso`, `ls /a`
prints `b`, `md5 /A/B/C` prints the hash of its content, `md5` of the root fails, and `md5 /a` succeeds without printing a
line for `/a/b/c`. -/
example (c : Ciso) : ∃ img, let fs := twoForms img []
    let run := fun (n : Nat) (cmd : ReadCmd) => readCommand ⟨[], fun _ => .none⟩
      (⟨true, c, id, n⟩ : Reader Bytes) fs ['x', '.', 'i', 's', 'o'] ['x'] cmd
    StoredTree ⟨[], fun _ => .none⟩ fs ['x', '.', 'i', 's', 'o'] img deepFs deepContent ∧
    run 3 (.ls ['/', 'a'] true) = ⟨[.text ['b']], .ok ()⟩ ∧
    run 3 (.md5 (some ['/', 'A', '/', 'B', '/', 'C'])) = ⟨[.digest [1, 2] ['/', 'A', '/', 'B', '/', 'C']], .ok ()⟩ ∧
    run 3 (.md5 (some ['/'])) = ⟨[], .err .noDirent⟩ ∧
    ∃ n, (run n (.md5 (some ['/', 'a']))).outcome = .ok () ∧
      ∀ sum, .digest sum ['/', 'a', '/', 'b', '/', 'c'] ∉ (run n (.md5 (some ['/', 'a']))).lines := by
  obtain ⟨img, hs⟩ := deep_from
  have hi := twoForms_stored hs []
  have hpl : PlainPath [['a']] := by intro s hs; simp at hs; subst hs; decide
  have hpl' : PlainPath [['A'], ['B'], ['C']] := by
    intro s hs; simp at hs; rcases hs with rfl | rfl | rfl <;> decide
  refine ⟨img, hi, ?_, ?_, ?_, ?_⟩
  · obtain ⟨h1, _⟩ := C123_ls hi (⟨true, c, id, 3⟩ : Reader Bytes) (deep_fuel (Nat.le_refl 3)).1
      (deep_fuel (Nat.le_refl 3)).2 ['x'] true
    obtain ⟨lst, names, k1, k2, k3⟩ := h1 [['A']] ['/', 'a'] ((deep_dirs _).2 (by simp))
      (.inr ⟨[['a']], by simp, by unfold SamePath; decide, hpl, rfl⟩)
    cases k1
    have := List.perm_singleton.1 k3
    rw [this] at k2
    exact k2
  · exact C123_md5_file hi (⟨true, c, id, 3⟩ : Reader Bytes) (deep_fuel (Nat.le_refl 3)).2 ['x']
      (p := [['A'], ['b']]) (e := ⟨['c'], false, 2⟩) ((deep_entries _ _).2 (by simp)) rfl
      (q := [['A'], ['B'], ['C']]) (by unfold SamePath; decide) hpl'
  · exact C124_md5_root_false hi (⟨true, c, id, 3⟩ : Reader Bytes) ['x']
  · obtain ⟨n, hn⟩ := C124_md5_directory_false hi (p := [['A']]) (q := [['a']]) (r := [['b']]) (e := ⟨['c'], false, 2⟩)
      ((deep_dirs _).2 (by simp)) (by simp) (by unfold SamePath; decide) hpl ((deep_entries _ _).2 (by simp)) (by simp)
      (id : Bytes → Bytes)
    exact ⟨n + 1, hn ⟨true, c, id, n + 1⟩ ['x'] rfl (by simp)⟩

end Xdvdfs.Props
