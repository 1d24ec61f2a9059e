import Verif.Proof.Show
import Verif.Props.Checksum
import Verif.Props.Fuse

/-!
# The commands that print what is in an image: C59, C75, C76

`checked` says whether the tool was built with overflow checks, `compressed` whether the image is read through the
decompressor.
-/

namespace Xdvdfs.Props

open TabWriter Spec

theorem walkDirentTree_agree {a b : Dev} (h : AgreeLow a b) (tab : Region) (fuel : Nat) :
    walkDirentTree a tab fuel = walkDirentTree b tab fuel := by
  unfold walkDirentTree
  split
  · rfl
  · exact h.walkLoop _ _ _ _

theorem printSubdir_agree {a b : Dev} (h : AgreeLow a b) (checked : Bool) (tab : Region) (fuel : Nat) :
    printSubdir checked a tab fuel = printSubdir checked b tab fuel := by
  unfold printSubdir
  rw [walkDirentTree_agree h]

theorem slashPath_ne {q : Path} (hq : q ≠ []) (hp : PlainPath q) : slashPath q ≠ ['/'] := by
  cases q with
  | nil => exact absurd rfl hq
  | cons a q =>
    intro he
    have ha := (hp a (by simp)).1
    simp only [slashPath, List.flatMap_cons, List.cons_append, List.cons.injEq, true_and,
      List.append_eq_nil_iff] at he
    exact ha he.1

/-! ## C59 -/

/-- C59, arithmetic: a link is printed as the offset it designates if it is below `2^14`; otherwise the tool panics, or
prints another offset. -/
theorem C59_link_partial (link : UInt16) :
    (link.toNat < 2 ^ 14 → ∀ checked, infoLink checked link = .ok (linkOffset link)) ∧
    (2 ^ 14 ≤ link.toNat → infoLink true link = .panic ∧
      ∃ o, infoLink false link = .ok (some o) ∧ some o ≠ linkOffset link) := by
  refine ⟨fun h _ => infoLink_small h, fun h => ⟨infoLink_checked_big h, ?_⟩⟩
  obtain ⟨o, h1, h2⟩ := infoLink_wraps h
  refine ⟨o, h1, ?_⟩
  unfold linkOffset
  split
  · simp
  · simp [h2]

/-- C59 (part): on a packed image whose directory tables all stay within 64 KiB, `info` on the root prints a true
listing; on an entry it prints the entry truly, followed, for a directory, by a true listing of it. -/
theorem C59_info_partial {fs : SourceFs} {content : Path → Bytes} (hb : Bounded fs) (hf : FaithfulTo fs content)
    {faults : Faults} {fuel : Nat} {img0 : Bytes} {s' : PackState ImgFile}
    (h : createImage (fileEnv fs faults) fuel ⟨⟨img0, []⟩, []⟩ = (.ok (), s'))
    (hsm : ∀ p l, DirOf fs.readDir p → fs.readDir p = .ok l → SmallListing l)
    (checked compressed : Bool) {wf : Nat} (hwf : ScanFuel fs.readDir wf) (hsb : SearchBudget fs.readDir wf) :
    (∃ lst infos, fs.readDir [] = .ok lst ∧
      cmdInfo checked compressed (fileDev s'.dev.img) (some ['/']) wf = .ok (.entries infos) ∧
      TrueListing (fileDev s'.dev.img) lst infos) ∧
    ∀ p e q, EntryIn fs.readDir p e → SamePath (p ++ [e.name]) q → PlainPath q →
      ∃ i d rest, cmdInfo checked compressed (fileDev s'.dev.img) (some (slashPath q)) wf = .ok (.entries (i :: rest)) ∧
        i.name = e.name ∧ readDirent (fileDev s'.dev.img) i.offset = .ok (some d) ∧ Describes i d ∧
        (e.isDir = false → rest = [] ∧ i.size = e.len) ∧
        (e.isDir = true → ∃ lst, fs.readDir (p ++ [e.name]) = .ok lst ∧
          TrueListing (fileDev s'.dev.img) lst rest) := by
  obtain ⟨M, Loc, l0, hP⟩ := pack_packed hb hf h
  obtain ⟨dev, ho, ha⟩ := openVolume_packed hP compressed
  have hroot : (VolDesc.new (regionOf l0)).root = regionOf l0 := rfl
  refine ⟨?_, ?_⟩
  · obtain ⟨lst, hlst⟩ := hP.listable [] .root
    obtain ⟨infos, k1, k2, _⟩ := subdir_small hP.image hP.root hP.rootDir hlst (hsm _ _ .root hlst) checked
    refine ⟨lst, infos, hlst, ?_, k2⟩
    simp only [cmdInfo, ho, Res.ok_bind, if_pos, hroot]
    rw [printSubdir_agree ha, k1 wf (hwf _ _ .root hlst)]; rfl
  · intro p e q he hs hq
    have hne : q ≠ [] := by rintro rfl; simp [SamePath] at hs
    obtain ⟨d, l', g1, g2, g3, g4, g5, g6⟩ := hP.image.entry_lookup hP.distinct hP.root hP.rootDir he hs hq hsb
    obtain ⟨lp, x, k1, k2, k3⟩ := entry_table hP hP.image he hs hq hsb g1
    obtain ⟨hdir, lstp, hlstp, hel⟩ := he
    obtain ⟨_, _, _, m3⟩ := subdir_small hP.image k1 k2 hlstp (hsm _ _ hdir hlstp) checked
    obtain ⟨m3, i, m4, m5⟩ := m3 x wf d (hsb _ _ hdir hlstp) k3
    cases hk : e.isDir with
    | false =>
      refine ⟨i, d, [], ?_, by rw [m5.1, g2], by rw [m5.2.1]; exact m3, m5, fun _ => ⟨rfl, ?_⟩, nofun⟩
      · simp only [cmdInfo, ho, Res.ok_bind, hroot]
        rw [if_neg (slashPath_ne hne hq), ha.walkPath, g1]
        simp only [Res.ok_bind, m4]
        have : d.node.dirent.direntTable = none := by
          unfold DiskData.direntTable; rw [g4, hk]; rfl
        rw [this]; rfl
      · have hsz := hP.image.files _ _ g5 (by rw [g6, hk])
        have hlen : (content (p ++ [e.name])).length = e.len := by
          obtain ⟨vol, _, _, _, _, all, _, hall, listed, hl, hperm⟩ := pack_success hb hf h
          have hm : entryKey content (p, e) ∈ listed.map (direntKey (fileDev s'.dev.img)) :=
            hperm.mem_iff.2 (List.mem_map_of_mem ((hall p e).2 ⟨hdir, lstp, hlstp, hel⟩))
          obtain ⟨y, hy, hy'⟩ := List.mem_map.1 hm
          simp only [direntKey, entryKey, hk, Prod.mk.injEq, Bool.false_eq_true, if_false] at hy'
          obtain ⟨_, _, y3, y4⟩ := hy'
          rw [y3] at y4
          simp only [Bool.false_eq_true, if_false, Option.some.injEq, Prod.mk.injEq] at y4
          obtain ⟨y4, y5⟩ := y4
          rw [← y4]
          exact readDataAll_length y5
        rw [m5.2.2.2.2.2.1, g3, ← hlen, hsz.1]
        have := (hP.image.small _ _ g5).2
        simp [regionOf, UInt32.toNat_ofNat, Nat.mod_eq_of_lt this]
    | true =>
      have hd2 : DirOf fs.readDir (p ++ [e.name]) := .sub hdir hlstp hel hk
      obtain ⟨lst, hlst⟩ := hP.listable _ hd2
      obtain ⟨infos, n1, n2, _⟩ := subdir_small hP.image g5 (by rw [g6, hk]) hlst (hsm _ _ hd2 hlst) checked
      refine ⟨i, d, infos, ?_, by rw [m5.1, g2], by rw [m5.2.1]; exact m3, m5, nofun, fun _ => ⟨lst, hlst, n2⟩⟩
      simp only [cmdInfo, ho, Res.ok_bind, hroot]
      rw [if_neg (slashPath_ne hne hq), ha.walkPath, g1]
      simp only [Res.ok_bind, m4]
      have : d.node.dirent.direntTable = some (regionOf l') := by
        unfold DiskData.direntTable; rw [g4, hk, g3]; rfl
      rw [this]
      simp only [printSubdir_agree ha, n1 wf (hwf _ _ hd2 hlst)]; rfl

/-- C59 is false: on every packed image, `info` on a directory with more than 4096 entries panics, or prints for some
entry a child offset that is not the one its link designates. -/
theorem C59_info_false {fs : SourceFs} {content : Path → Bytes} (hb : Bounded fs) (hf : FaithfulTo fs content)
    {faults : Faults} {fuel : Nat} {img0 : Bytes} {s' : PackState ImgFile}
    (h : createImage (fileEnv fs faults) fuel ⟨⟨img0, []⟩, []⟩ = (.ok (), s'))
    (compressed : Bool) {wf : Nat} (hwf : ScanFuel fs.readDir wf) (hsb : SearchBudget fs.readDir wf)
    {p : Path} (hp : DirOf fs.readDir p) {lst : List FileEntry} (hlst : fs.readDir p = .ok lst)
    (hbig : 4096 < lst.length) {s : Str} (hs : NamesDir p s) :
    cmdInfo true compressed (fileDev s'.dev.img) (some s) wf = .panic ∧
    ∃ infos, cmdInfo false compressed (fileDev s'.dev.img) (some s) wf = .ok (.entries infos) ∧
      ∃ i ∈ infos, ∃ d, i.offset = d.offset ∧ readDirent (fileDev s'.dev.img) d.offset = .ok (some d) ∧
        ((∃ o, i.left = some o ∧ o ≠ 4 * d.node.left.toNat) ∨ (∃ o, i.right = some o ∧ o ≠ 4 * d.node.right.toNat)) := by
  obtain ⟨M, Loc, l0, hP⟩ := pack_packed hb hf h
  obtain ⟨dev, ho, ha⟩ := openVolume_packed hP compressed
  have hroot : (VolDesc.new (regionOf l0)).root = regionOf l0 := rfl
  obtain ⟨l, k1, k2, k3⟩ := dir_table hP hP.image hp hs hsb
  obtain ⟨_, lst', w, r, n, n', h1, h2, h3, h4, h5, h6⟩ := hP.image.dirs p l k1 k2
  rw [hlst] at h1; cases h1
  have hlen : (lst.map (itemOf M p)).length = lst.length := List.length_map _
  obtain ⟨ds, g1, d, hd, hread, hbad⟩ := placed_big h3 h4 h5 (by omega)
  rw [hlen] at g1
  have hw := g1 wf (hwf _ _ hp hlst)
  obtain ⟨is, i1, i2⟩ := printDirents_unchecked ds
  obtain ⟨i, hi, hi'⟩ := i2 d hd
  obtain ⟨w1, w2⟩ := printDirent_wraps hi' hbad
  have hsub : ∀ checked, printSubdir checked dev (regionOf l) wf = printDirents checked ds := by
    intro checked
    rw [printSubdir_agree ha]
    unfold printSubdir
    rw [hw]; rfl
  rcases k3 with ⟨rfl, rfl, rfl⟩ | ⟨m1, m2, d0, p', e, m3, _, m4, _⟩
  · refine ⟨?_, is, ?_, i, hi, d, w1, hread, w2⟩
    · simp only [cmdInfo, ho, Res.ok_bind, if_pos, hroot, hsub, printDirents_checked ⟨d, hd, hbad⟩]; rfl
    · simp only [cmdInfo, ho, Res.ok_bind, if_pos, hroot, hsub, i1]; rfl
  · have hcmd : ∀ checked, cmdInfo checked compressed (fileDev s'.dev.img) (some s) wf =
        (do let i ← printDirent checked d0
            let l ← printDirents checked ds
            pure (.entries (i :: l))) := by
      intro checked
      simp only [cmdInfo, ho, Res.ok_bind, hroot]
      rw [if_neg m2, ha.walkPath, m3]
      simp only [Res.ok_bind, m4, hsub]
    obtain ⟨i0, hi0⟩ := printDirent_unchecked d0
    refine ⟨?_, i0 :: is, ?_, i, by simp [hi], d, w1, hread, w2⟩
    · rw [hcmd, printDirents_checked ⟨d, hd, hbad⟩]
      rcases printDirent_checked d0 with h0 | ⟨ha', hb'⟩
      · rw [h0]; rfl
      · obtain ⟨j, hj, _⟩ := printDirent_small (checked := true) ha' hb'
        rw [hj]; rfl
    · rw [hcmd, hi0, i1]; rfl

/-! ### A directory with more than 4096 entries -/

/-- The characters from `0` to `?`. -/
def dig (n : Nat) : Char := Char.ofNat (48 + n % 16)

/-- A name of four characters for every number below `2^16`. -/
def numName (n : Nat) : Str := [dig (n / 4096), dig (n / 256), dig (n / 16), dig n]

theorem dig_inj : ∀ a b : Fin 16, asciiUpper (dig a) = asciiUpper (dig b) → a = b := by decide

theorem dig_cp : ∀ a : Fin 16, cp1252Char (48 + a) = dig a := by decide

theorem dig_size : ∀ a : Fin 16, (dig a).utf8Size = 1 := by decide

theorem dig_mod (n : Nat) : dig n = dig ((⟨n % 16, Nat.mod_lt _ (by omega)⟩ : Fin 16) : Nat) := by
  unfold dig; simp

theorem dig_inj' {a b : Nat} (h : asciiUpper (dig a) = asciiUpper (dig b)) : a % 16 = b % 16 := by
  rw [dig_mod a, dig_mod b] at h
  exact congrArg Fin.val (dig_inj _ _ h)

theorem numName_inj {a b : Nat} (ha : a < 65536) (hb : b < 65536) (h : SameName (numName a) (numName b)) : a = b := by
  simp only [SameName, upper, numName, List.map_cons, List.map_nil, List.cons.injEq, and_true] at h
  obtain ⟨h1, h2, h3, h4⟩ := h
  have := dig_inj' h1
  have := dig_inj' h2
  have := dig_inj' h3
  have := dig_inj' h4
  omega

/-- Empty files with the names of the numbers below `n`. -/
def manyFiles (n : Nat) : List (Str × Bytes) := (List.range n).map (fun k => (numName k, []))

theorem many_distinct {n : Nat} (hn : n ≤ 65536) : DistinctNames ((manyFiles n).map Prod.fst) := by
  unfold DistinctNames manyFiles
  rw [List.map_map, List.pairwise_map]
  have h := List.nodup_range (n := n)
  refine List.Pairwise.imp_of_mem ?_ h
  intro a b ha hb hne hs
  rw [List.mem_range] at ha hb
  exact hne (numName_inj (by omega) (by omega) hs)

theorem many_packs {n : Nat} (hn : n ≤ 10000) (img0 : Bytes) :
    ∃ s', createImage (fileEnv (flatFs (manyFiles n)) (fun _ => none)) 1 ⟨⟨img0, []⟩, []⟩ = (.ok (), s') := by
  have hmem : ∀ x ∈ flatTree (manyFiles n), ∀ e ∈ x.2, ∃ k, e = ⟨numName k, false, 0⟩ := by
    intro x hx e he
    simp only [flatTree, List.mem_singleton] at hx
    subst hx
    obtain ⟨y, hy, rfl⟩ := List.mem_map.1 he
    obtain ⟨k, _, rfl⟩ := List.mem_map.1 hy
    exact ⟨k, rfl⟩
  have hlen : ∀ x ∈ flatTree (manyFiles n), x.2.length = n := by
    intro x hx
    simp only [flatTree, List.mem_singleton] at hx
    subst hx
    simp [manyFiles]
  have hdig : ∀ k, InCp1252 (dig k) := fun k => ⟨48 + k % 16, by omega, by
    rw [dig_mod k]; exact dig_cp ⟨k % 16, Nat.mod_lt _ (by omega)⟩⟩
  have hsize : ∀ k, (dig k).utf8Size = 1 := fun k => by rw [dig_mod k]; exact dig_size _
  have hst : ∀ x ∈ flatTree (manyFiles n), StorableListing x.2 := by
    intro x hx
    refine ⟨?_, ?_⟩
    · have := many_distinct (n := n) (by omega)
      simp only [flatTree, List.mem_singleton] at hx
      subst hx
      simpa [Function.comp_def] using this
    · intro e he
      obtain ⟨k, rfl⟩ := hmem x hx e he
      refine ⟨?_, ?_, fun _ => by simp only; omega⟩
      · simp [utf8Len, numName, hsize]
      · intro c hc
        simp only [numName, List.mem_cons, List.not_mem_nil, or_false] at hc
        rcases hc with rfl | rfl | rfl | rfl <;> exact hdig _
  have hfew : ∀ x ∈ flatTree (manyFiles n), FewEntries x.2 := by
    intro x hx
    unfold FewEntries
    have := sum_le (f := fun e : FileEntry => (14 + e.name.length + 3) / 4 * 4) (b := 20) (l := x.2) (by
      intro e he
      obtain ⟨k, rfl⟩ := hmem x hx e he
      simp [numName])
    rw [hlen x hx] at this
    omega
  have hfits : Fits (flatTree (manyFiles n)) := by
    refine ⟨?_, ?_⟩
    · simp only [flatTree, List.map_cons, List.map_nil, List.sum_cons, List.sum_nil, dirSectors]
      have h0 : ((manyFiles n).map (fun x => (⟨x.1, false, x.2.length⟩ : FileEntry))).length = n := by simp [manyFiles]
      have := sum_le (f := fun e : FileEntry => sectorsFor e.len) (b := 1)
        (l := ((manyFiles n).map (fun x => (⟨x.1, false, x.2.length⟩ : FileEntry))).filter (fun e => !e.isDir)) (by
          intro e he
          obtain ⟨k, rfl⟩ := hmem ([], _) (by simp [flatTree]) e (List.mem_filter.1 he).1
          simp [sectorsFor])
      have hl := List.length_filter_le (fun e : FileEntry => !e.isDir)
        ((manyFiles n).map (fun x => (⟨x.1, false, x.2.length⟩ : FileEntry)))
      rw [h0] at hl
      rw [h0]
      omega
    · intro x hx
      rw [hlen x hx]; omega
  have := C33_representable_tree_packs_few (fileEnv (flatFs (manyFiles n)) (fun _ => none)) (flat_listable _)
    (flat_tree _) hfits hst hfew
    (fileEnv_works (fun _ e _ _ => ⟨e.len, rfl⟩)) (fuel := 1) (by simp [flatTree]) ⟨⟨img0, []⟩, []⟩
  rcases hc : createImage (fileEnv (flatFs (manyFiles n)) (fun _ => none)) 1 ⟨⟨img0, []⟩, []⟩ with ⟨r, s'⟩
  rw [hc] at this
  simp only at this
  subst this
  exact ⟨s', rfl⟩

theorem many_scanFuel (n : Nat) : ScanFuel (flatFs (manyFiles n)).readDir (n + 1) := by
  intro p l hp hl
  rw [flat_dirs] at hp
  subst hp
  cases hl
  simp [manyFiles]

theorem many_info_panics {n : Nat} (h1 : 4096 < n) (hn : n ≤ 10000) :
    ∃ s', createImage (fileEnv (flatFs (manyFiles n)) (fun _ => none)) 1 ⟨⟨[], []⟩, []⟩ = (.ok (), s') ∧
    cmdInfo true false (fileDev s'.dev.img) (some ['/']) (n + 1) = .panic := by
  obtain ⟨s', h⟩ := many_packs hn []
  refine ⟨s', h, ?_⟩
  have hsb : SearchBudget (flatFs (manyFiles n)).readDir (n + 1) := by
    intro p l hp hl
    have := many_scanFuel n p l hp hl
    have h1 : Nat.log2 (l.length + 1) < 14 := (Nat.log2_lt (by omega)).2 (by omega)
    omega
  exact (C59_info_false (flat_bounded _) (flat_faithful (many_distinct (by omega))) h false (many_scanFuel n) hsb .root
    (lst := (manyFiles n).map (fun x => ⟨x.1, false, x.2.length⟩)) rfl (by simpa [manyFiles] using h1)
    (.inl ⟨rfl, rfl⟩)).1

/-- The hypotheses of `C59_info_false` are met by the image packed from a directory of 5000 empty files. -/
example : ∃ s', createImage (fileEnv (flatFs (manyFiles 5000)) (fun _ => none)) 1 ⟨⟨[], []⟩, []⟩ = (.ok (), s') ∧
    cmdInfo true false (fileDev s'.dev.img) (some ['/']) (5000 + 1) = .panic :=
  many_info_panics (by omega) (by omega)

/-! ## C75 -/

theorem treeTotals_eq (checked : Bool) : ∀ (l : List (Str × DirEnt)) (c t : Nat),
    t + ((l.filter (fun x => !x.2.node.dirent.isDirectory)).map (fun x => x.2.node.dirent.data.size.toNat)).sum < 2 ^ 64 →
    treeTotals checked l (c, t) = .ok (c + (l.filter (fun x => !x.2.node.dirent.isDirectory)).length,
      t + ((l.filter (fun x => !x.2.node.dirent.isDirectory)).map (fun x => x.2.node.dirent.data.size.toNat)).sum) := by
  intro l
  induction l with
  | nil => intro c t _; rfl
  | cons x xs ih =>
    intro c t h
    cases hx : x.2.node.dirent.isDirectory with
    | true =>
      simp only [List.filter_cons, hx, Bool.not_true, Bool.false_eq_true, if_false] at h ⊢
      simp only [treeTotals, hx, if_true]
      exact ih c t h
    | false =>
      simp only [List.filter_cons, hx, Bool.not_false, if_true, List.map_cons, List.sum_cons, List.length_cons] at h ⊢
      simp only [treeTotals, hx, Bool.false_eq_true, if_false]
      rw [if_pos (by omega), ih _ _ (by omega)]
      simp only [Res.ok.injEq, Prod.mk.injEq]
      omega

/-- The line of a listing key. -/
def keyLine (k : Str × Str × Bool × Option (Nat × Res Bytes)) : Str :=
  k.1 ++ ['/'] ++ k.2.1 ++ (match k.2.2.2 with
    | none => "/ (0 bytes)".toList
    | some x => " (".toList ++ (Nat.repr x.1).toList ++ " bytes)".toList)

theorem treeLine_key (dev : Dev) (x : Str × DirEnt) : treeLine x = keyLine (direntKey dev x) := by
  unfold treeLine keyLine direntKey
  cases h : x.2.node.dirent.isDirectory <;> simp

theorem entryLine_key (content : Path → Bytes) (x : Path × FileEntry) : entryLine x = keyLine (entryKey content x) := by
  unfold entryLine keyLine entryKey slashPath
  cases h : x.2.isDir <;> simp [toString]

theorem summaryLine_eq (a b : Nat) (p : Str) : treeFooter a b p = summaryLine a b p := by
  unfold treeFooter summaryLine
  simp [toString]

theorem fileSizes_dirents (dev : Dev) (l : List (Str × DirEnt)) :
    (l.filter (fun x => !x.2.node.dirent.isDirectory)).map (fun x => x.2.node.dirent.data.size.toNat) =
      (l.map (direntKey dev)).filterMap (fun k => k.2.2.2.map Prod.fst) := by
  rw [List.filterMap_map]
  induction l with
  | nil => rfl
  | cons x xs ih =>
    cases hx : x.2.node.dirent.isDirectory <;>
      simp [List.filter_cons, hx, direntKey, ih, List.filterMap_cons]

theorem fileSizes_entries (content : Path → Bytes) (l : List (Path × FileEntry)) :
    (l.filter (fun x => !x.2.isDir)).map (fun x => x.2.len) =
      (l.map (entryKey content)).filterMap (fun k => k.2.2.2.map Prod.fst) := by
  rw [List.filterMap_map]
  induction l with
  | nil => rfl
  | cons x xs ih =>
    cases hx : x.2.isDir <;>
      simp [List.filter_cons, hx, entryKey, ih, List.filterMap_cons]

theorem nodup_subset_length {α : Type} [DecidableEq α] : ∀ {l m : List α}, l.Nodup → (∀ x ∈ l, x ∈ m) →
    l.length ≤ m.length := by
  intro l
  induction l with
  | nil => intro m _ _; simp
  | cons x xs ih =>
    intro m hn hs
    rw [List.nodup_cons] at hn
    have hm := hs x (by simp)
    have := ih (m := m.erase x) hn.2 (by
      intro y hy
      have hne : y ≠ x := by rintro rfl; exact hn.1 hy
      exact (List.mem_erase_of_ne hne).2 (hs y (by simp [hy])))
    rw [List.length_erase, if_pos (by simpa using hm)] at this
    have := List.length_pos_of_mem hm
    simp only [List.length_cons]
    omega

/-- C75: `tree` on a packed image prints one line for every entry of the source, with its path and size, in some order,
and then the number of files, their total size and the path of the image. -/
theorem C75_tree {fs : SourceFs} {content : Path → Bytes} (hb : Bounded fs) (hf : FaithfulTo fs content)
    {faults : Faults} {fuel : Nat} {img0 : Bytes} {s' : PackState ImgFile}
    (h : createImage (fileEnv fs faults) fuel ⟨⟨img0, []⟩, []⟩ = (.ok (), s')) (checked compressed : Bool)
    (imagePath : Str) :
    ∃ all : List (Path × FileEntry), all.Nodup ∧ (∀ p e, (p, e) ∈ all ↔ EntryIn fs.readDir p e) ∧
      (((all.filter (fun x => !x.2.isDir)).map (fun x => x.2.len)).sum < 2 ^ 64 →
        ∃ lines, lines.Perm (all.map entryLine) ∧ ∀ wf, all.length + 1 < wf →
          cmdTree checked compressed (fileDev s'.dev.img) imagePath wf =
            .ok (lines ++ [summaryLine (all.filter (fun x => !x.2.isDir)).length
              ((all.filter (fun x => !x.2.isDir)).map (fun x => x.2.len)).sum imagePath])) := by
  obtain ⟨M, Loc, l0, hP⟩ := pack_packed hb hf h
  obtain ⟨dev, ho, ha⟩ := openVolume_packed hP compressed
  obtain ⟨vol, hv, _, _, _, all, hn, hall, listed, hl, hperm⟩ := pack_success hb hf h
  rw [hP.volume] at hv
  cases hv
  refine ⟨all, hn, hall, fun hsum => ⟨listed.map treeLine, ?_, ?_⟩⟩
  · have h1 : listed.map treeLine = (listed.map (direntKey (fileDev s'.dev.img))).map keyLine := by
      rw [List.map_map]
      exact List.map_congr_left (fun x _ => treeLine_key _ x)
    have h2 : all.map entryLine = (all.map (entryKey content)).map keyLine := by
      rw [List.map_map]
      exact List.map_congr_left (fun x _ => entryLine_key content x)
    rw [h1, h2]
    exact hperm.map keyLine
  · intro wf hwf
    have hp2 := hperm.filterMap (fun k => k.2.2.2.map Prod.fst)
    rw [← fileSizes_dirents, ← fileSizes_entries] at hp2
    have hs2 := List.Perm.sum_nat hp2
    have hl2 := hp2.length_eq
    simp only [List.length_map] at hl2
    have ht := treeTotals_eq checked listed 0 0 (by rw [hs2]; omega)
    have hl' := hl wf hwf
    rw [← ha.fileTree] at hl'
    simp only [cmdTree, ho, Res.ok_bind]
    rw [hl']
    simp only [Res.ok_bind, ht, summaryLine_eq, hs2, hl2, Nat.zero_add]
    rfl

/-- The sample packs, and its listing has the line of a file in a subdirectory and the right totals. -/
example : ∃ s', createImage (fileEnv sampleFs' (fun _ => none)) 2 ⟨⟨[], []⟩, []⟩ = (.ok (), s') ∧
    ∃ wf lines n t, "/A/c (3 bytes)".toList ∈ lines ∧ "/A/ (0 bytes)".toList ∈ lines ∧
      cmdTree true false (fileDev s'.dev.img) ['x'] wf = .ok (lines ++ [summaryLine n t ['x']]) := by
  obtain ⟨s', h⟩ := sample_packs []
  refine ⟨s', h, ?_⟩
  obtain ⟨all, h1, h2, h3⟩ := C75_tree sample'_bounded sample'_faithful h true false ['x']
  have hle : ((all.filter (fun x => !x.2.isDir)).map (fun x => x.2.len)).sum < 2 ^ 64 := by
    have := sum_le (f := fun x : Path × FileEntry => x.2.len) (b := 5) (l := all.filter (fun x => !x.2.isDir)) (by
      intro x hx
      rcases (sample_entries x.1 x.2).1 ((h2 x.1 x.2).1 (List.mem_filter.1 hx).1) with ⟨_, h⟩ | ⟨_, h⟩ | ⟨_, h⟩ <;>
        rw [h] <;> decide)
    have h4 := List.length_filter_le (fun x : Path × FileEntry => !x.2.isDir) all
    have h5 : all.length ≤ 3 := by
      have hsub : ∀ x ∈ all, x ∈ [(([] : Path), (⟨['A'], true, 0⟩ : FileEntry)), ([], ⟨['b', '.', 't', 'x', 't'], false, 5⟩),
          ([['A']], ⟨['c'], false, 3⟩)] := by
        intro x hx
        rcases (sample_entries x.1 x.2).1 ((h2 x.1 x.2).1 hx) with ⟨a, b⟩ | ⟨a, b⟩ | ⟨a, b⟩
        · simp [Prod.ext_iff, a, b]
        · simp [Prod.ext_iff, a, b]
        · simp [Prod.ext_iff, a, b]
      exact nodup_subset_length h1 hsub
    omega
  obtain ⟨lines, k1, k2⟩ := h3 hle
  refine ⟨all.length + 2, lines, _, _, ?_, ?_, k2 _ (by omega)⟩
  · exact k1.mem_iff.2 (List.mem_map.2 ⟨([['A']], ⟨['c'], false, 3⟩), (h2 _ _).2 ((sample_entries _ _).2 (by simp)), by decide⟩)
  · exact k1.mem_iff.2 (List.mem_map.2 ⟨([], ⟨['A'], true, 0⟩), (h2 _ _).2 ((sample_entries _ _).2 (by simp)), by decide⟩)

/-! ## C76 -/

/-- C76: `ls` on a packed image, with or without `--scan`, prints for a directory of the source, named in any letter
case, exactly the names in it; for a file it reports an error, and for any other path that it does not exist or that a
component is not a directory. -/
theorem C76_ls {fs : SourceFs} {content : Path → Bytes} (hb : Bounded fs) (hf : FaithfulTo fs content)
    {faults : Faults} {fuel : Nat} {img0 : Bytes} {s' : PackState ImgFile}
    (h : createImage (fileEnv fs faults) fuel ⟨⟨img0, []⟩, []⟩ = (.ok (), s')) (compressed scan : Bool)
    {wf : Nat} (hwf : ScanFuel fs.readDir wf) (hsb : SearchBudget fs.readDir wf) :
    (∀ p s, DirOf fs.readDir p → NamesDir p s → ∃ lst names, fs.readDir p = .ok lst ∧
      cmdLs compressed (fileDev s'.dev.img) s scan wf = .ok names ∧ names.Perm (lst.map FileEntry.name)) ∧
    (∀ p e q, EntryIn fs.readDir p e → e.isDir = false → SamePath (p ++ [e.name]) q → PlainPath q →
      cmdLs compressed (fileDev s'.dev.img) (slashPath q) scan wf = .err .other) ∧
    (∀ q, q ≠ [] → PlainPath q → (∀ p e, EntryIn fs.readDir p e → ¬ SamePath (p ++ [e.name]) q) →
      cmdLs compressed (fileDev s'.dev.img) (slashPath q) scan wf = .err .doesNotExist ∨
      cmdLs compressed (fileDev s'.dev.img) (slashPath q) scan wf = .err .isNotDirectory) := by
  obtain ⟨M, Loc, l0, hP⟩ := pack_packed hb hf h
  obtain ⟨dev, ho, ha⟩ := openVolume_packed hP compressed
  have hroot : (VolDesc.new (regionOf l0)).root = regionOf l0 := rfl
  have hI := hP.image.agree ha
  refine ⟨?_, ?_, ?_⟩
  · intro p s hp hs
    obtain ⟨l, k1, k2, k3⟩ := dir_table hP hI hp hs hsb
    obtain ⟨lst, ds, _, g2, g3, _, g5⟩ := hI.scan_dir k1 k2
    obtain ⟨lst', ds', _, m2, m3, _, m5, _⟩ := hI.list_dir k1 k2
    rw [g2] at m2; cases m2
    have hw := hwf _ _ hp g2
    have hnames : ∃ names, names.Perm (lst.map FileEntry.name) ∧
        ((if scan then scanAll dev (regionOf l) wf else walkDirentTree dev (regionOf l) wf) >>= fun ds =>
          (pure (ds.map DirEnt.nameStr) : Res (List Str))) = .ok names := by
      cases scan with
      | true =>
        refine ⟨ds.map DirEnt.nameStr, ?_, ?_⟩
        · have := g5.map Prod.fst
          simpa [List.map_map, Function.comp_def, sig, fileEntryOf] using this
        · rw [if_pos rfl, g3 _ hw]; rfl
      | false =>
        refine ⟨ds'.map DirEnt.nameStr, ?_, ?_⟩
        · have := m5.map Prod.fst
          simpa [List.map_map, Function.comp_def] using this
        · rw [if_neg (by simp), m3 _ hw]; rfl
    obtain ⟨names, n1, n2⟩ := hnames
    refine ⟨lst, names, g2, ?_, n1⟩
    rcases k3 with ⟨rfl, rfl, rfl⟩ | ⟨_, j2, d, p', e, j3, _, j4, _⟩
    · simp only [cmdLs, ho, Res.ok_bind, if_pos, hroot]
      exact n2
    · simp only [cmdLs, ho, Res.ok_bind, hroot]
      rw [if_neg j2, j3]
      simp only [Res.ok_bind, j4, Res.ofOption]
      exact n2
  · intro p e q he hk hs hq
    have hne : q ≠ [] := by rintro rfl; simp [SamePath] at hs
    obtain ⟨d, l', g1, g2, g3, g4, g5, g6⟩ := hI.entry_lookup hP.distinct hP.root hP.rootDir he hs hq hsb
    simp only [cmdLs, ho, Res.ok_bind, hroot]
    rw [if_neg (slashPath_ne hne hq), g1]
    have : d.node.dirent.direntTable = none := by unfold DiskData.direntTable; rw [g4, hk]; rfl
    simp only [Res.ok_bind, this, Res.ofOption]
    rfl
  · intro q hq hpl hno
    simp only [cmdLs, ho, Res.ok_bind, hroot]
    rw [if_neg (slashPath_ne hq hpl)]
    rcases hI.findsNothingElse hP.distinct hP.root hP.rootDir q wf hq hpl hno hsb with g | g
    · left; rw [g]; rfl
    · right; rw [g]; rfl

/-- The hypotheses of C59 (part) and C76 hold for the sample: `ls /a` prints the file in directory `A`. -/
example : ∃ s', createImage (fileEnv sampleFs' (fun _ => none)) 2 ⟨⟨[], []⟩, []⟩ = (.ok (), s') ∧
    cmdLs false (fileDev s'.dev.img) ['/', 'a'] true 3 = .ok [['c']] ∧
    ∃ i rest, cmdInfo true false (fileDev s'.dev.img) (some ['/', 'a']) 3 = .ok (.entries (i :: rest)) ∧
      i.name = ['A'] ∧ rest.map DirentInfo.name = [['c']] := by
  obtain ⟨s', h⟩ := sample_packs []
  refine ⟨s', h, ?_, ?_⟩
  · obtain ⟨h1, _, _⟩ := C76_ls sample'_bounded sample'_faithful h false true sample_scanFuel sample_budget
    obtain ⟨lst, names, k1, k2, k3⟩ := h1 [['A']] ['/', 'a'] ((sample_dirs _).2 (.inr rfl))
      (.inr ⟨[['a']], by simp, by unfold SamePath; decide, by intro s hs; simp at hs; subst hs; decide, rfl⟩)
    cases k1
    rw [k2]
    have := List.perm_singleton.1 k3
    rw [this]
  · obtain ⟨_, h2⟩ := C59_info_partial sample'_bounded sample'_faithful h (by
      intro p l hp hl
      rcases (sample_dirs p).1 hp with rfl | rfl <;> cases hl <;> (unfold SmallListing; decide)) true false
      sample_scanFuel sample_budget
    obtain ⟨i, d, rest, k1, k2, _, _, _, k3⟩ := h2 [] ⟨['A'], true, 0⟩ [['a']] ((sample_entries _ _).2 (by simp))
      (by unfold SamePath; decide) (by intro s hs; simp at hs; subst hs; decide)
    obtain ⟨lst, m1, m2, _⟩ := k3 rfl
    cases m1
    exact ⟨i, rest, k1, k2, List.perm_singleton.1 m2⟩

end Xdvdfs.Props
