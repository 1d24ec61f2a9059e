import Verif.Props.CliPaths

/-!
# C86 to C88: unpacking images that are files of the host
-/

namespace Xdvdfs.Props

open Xdvdfs Xdvdfs.Spec

/-! ## C86: unpacking an image does not change it -/

/-- C86 for an image outside the destination and without a slash in a name: whatever the image contains and whatever
faults occur, the image file is the same afterwards, and the command does what it does on a copy of the image that nothing
can change, so that what C45 and C46 say holds.  What is missing from C86 is an image inside the destination: see
`C86_image_kept_false`. -/
theorem C86_image_kept_partial (h : Host) (clones : Bool) (fuel : Nat) {fs : HostFs} (hw : WellFormedHost fs)
    (hcwd : fs h.cwd = some .dir) {image dest : Str} {p : HostPath} {img : Bytes}
    (hst : h.stat fs image = some (p, .file img)) (hn : NoSlashNames img fuel) (hout : ¬ placeOf h dest <+: p) :
    IsFile (cmdUnpackArgs h clones fuel fs image (some dest)).2 p img ∧
      cmdUnpackArgs h clones fuel fs image (some dest) = cmdUnpack h img clones dest fuel fs := by
  have he := cmdUnpackArgs_eq (clones := clones) ⟨hw, hcwd⟩ hst hn hout
  refine ⟨?_, he⟩
  rw [he]
  have hf := (stat_some hst).2.2
  have hc := C46_unpack_contained_partial h img clones dest fuel fs hw hcwd hn
  show (cmdUnpack h img clones dest fuel fs).2 p = some (.file img)
  rw [← hf]
  apply Classical.byContradiction
  intro hne
  rcases hc p hne with g | ⟨_, g, _⟩
  · exact hout g
  · rw [hf] at g; cases g

/-- The names in an image that was packed from names of the host have no slash. -/
theorem packedFrom_noSlash {img : Bytes} {S : SourceFs} {content : Path → Bytes} (hp : PackedFrom img S content) :
    ∃ n, ∀ fuel, n < fuel → NoSlashNames img fuel := by
  obtain ⟨⟨faults, pf, img0, s', hpack, rfl⟩, hb, hf, hnames⟩ := hp
  obtain ⟨vol, h1, _, _, _, all, a1, a2, listed, a3, a4⟩ := pack_success hb hf hpack
  refine ⟨all.length + 1, fun fuel hfu => ?_⟩
  intro base vol' tree hb' hv ht x hx
  rw [offsetNew_zero h1] at hb'
  cases hb'
  have hag := offsetDev_zero (fileDev s'.dev.img)
  rw [hag.readVolume, h1] at hv
  cases hv
  rw [hag.fileTree, a3 fuel hfu] at ht
  cases ht
  have hk := a4.subset (List.mem_map.2 ⟨x, hx, rfl⟩)
  obtain ⟨⟨p, e⟩, he, hk⟩ := List.mem_map.1 hk
  have : e.name = x.2.nameStr := by
    have := congrArg (fun k => k.2.1) hk
    exact this
  rw [← this]
  exact (hnames p e ((a2 p e).1 he)).2.1

/-- What unpacking an image that is a file outside a fresh destination does. -/
theorem stored_unpacks {h : Host} (hfaults : ∀ p, h.faults p = .none) (clones : Bool) {fs : HostFs} (hs : Sane h fs)
    {image dest : Str} {S : SourceFs} {content : Path → Bytes} (hst : StoredImage h fs image S content)
    (hfresh : FreshDest h dest fs) (hout : ¬ placeOf h dest <+: placeOf h image) :
    ∃ n st, (∀ fuel, n < fuel → cmdUnpackArgs h clones fuel fs image (some dest) = (.ok (), st)) ∧
      TreeAt st (placeOf h dest) S.readDir content ∧ ChangesOnlyInside h dest fs st ∧ Sane h st ∧
      ∀ q, fs q = some .dir → st q = some .dir := by
  obtain ⟨p, img, hst, hp⟩ := hst
  obtain ⟨n1, hn⟩ := packedFrom_noSlash hp
  obtain ⟨⟨faults, pf, img0, s', hpack, rfl⟩, hb, hf, hnames⟩ := hp
  obtain ⟨n2, st, g1, g2, g3⟩ := C45_unpack_restores hb hf hpack hnames h hfaults dest fs hfresh clones
  rw [← (stat_some hst).2.1] at hout
  have key : ∀ fuel, max n1 n2 < fuel → cmdUnpackArgs h clones fuel fs image (some dest) = (.ok (), st) := by
    intro fuel hfu
    rw [cmdUnpackArgs_eq hs hst (hn fuel (by omega)) hout]
    exact g1 fuel (by omega)
  have hk := cmdUnpack_keeps (h := h) (img := s'.dev.img) (clones := clones) (dest := dest) (fuel := n2 + 1) hs
  rw [g1 (n2 + 1) (by omega)] at hk
  exact ⟨max n1 n2, st, key, g2, g3, hk.1, hk.2⟩

/-! ## C87: extract mode restores every image -/

/-- C87 for images that do not get in each other's way: if every image was packed from some source, the destinations
are fresh, none of them is inside another and no image is inside any of them, then extract mode succeeds, the tree of
each image is below its own destination, and nothing has changed outside of the destinations except that missing
directories on the way to them may have been created.  What is missing from C87 are images with the same destination: see `C87_extract_false`. -/
theorem C87_extract_partial (h : Host) (hfaults : ∀ p, h.faults p = .none) (clones : Bool) (xs : List (Str × Str)) :
    ∀ {fs : HostFs}, WellFormedHost fs → fs h.cwd = some .dir →
    (∀ x ∈ xs, ∃ S content, StoredImage h fs x.1 S content) →
    (∀ x ∈ xs, DefaultDest x.1 x.2 ∧ FreshDest h x.2 fs) →
    (∀ x ∈ xs, ∀ y ∈ xs, ¬ placeOf h y.2 <+: placeOf h x.1) →
    xs.Pairwise (fun x y => ¬ placeOf h x.2 <+: placeOf h y.2 ∧ ¬ placeOf h y.2 <+: placeOf h x.2) →
    ∃ n st, (∀ fuel, n < fuel → exisoExtract h clones fuel none (xs.map Prod.fst) fs = (.ok (), st)) ∧
      (∀ x ∈ xs, ∀ S content, StoredImage h fs x.1 S content → TreeAt st (placeOf h x.2) S.readDir content) ∧
      ∀ q, st q ≠ fs q → ∃ x ∈ xs, placeOf h x.2 <+: q ∨ (OnTheWay h x.2 q ∧ fs q = none ∧ st q = some .dir) := by
  induction xs with
  | nil =>
    intro fs _ _ _ _ _ _
    exact ⟨0, fs, fun _ _ => rfl, by simp, fun _ h => absurd rfl h⟩
  | cons x xs ih =>
    intro fs hw hcwd himg hdest hout hsep
    obtain ⟨hx, hsep⟩ := List.pairwise_cons.1 hsep
    obtain ⟨S0, content0, hst0⟩ := himg x (by simp)
    obtain ⟨⟨name, hl, hdd, hstem⟩, hfresh⟩ := hdest x (by simp)
    obtain ⟨n1, fs1, g1, _, g3, g4, g5⟩ := stored_unpacks hfaults clones ⟨hw, hcwd⟩ hst0 hfresh (hout x (by simp) x (by simp))
    have keepImg : ∀ y ∈ xs, ∀ S content, StoredImage h fs y.1 S content → StoredImage h fs1 y.1 S content := by
      rintro y hy S content ⟨p, img, e1, e2⟩
      refine ⟨p, img, stat_elsewhere g3 g5 e1 ?_, e2⟩
      rw [(stat_some e1).2.1]
      exact hout y (by simp [hy]) x (by simp)
    obtain ⟨n2, st, k1, k2, k3⟩ := ih g4.wf g4.cwd
      (fun y hy => by
        obtain ⟨S, content, e⟩ := himg y (by simp [hy])
        exact ⟨S, content, keepImg y hy S content e⟩)
      (fun y hy => ⟨(hdest y (by simp [hy])).1,
        fresh_elsewhere g3 hfresh.2.1 (hx y hy).1 (hx y hy).2 (hdest y (by simp [hy])).2⟩)
      (fun y hy z hz => hout y (by simp [hy]) z (by simp [hz])) hsep
    refine ⟨max n1 n2, st, ?_, ?_, ?_⟩
    · intro fuel hfu
      simp only [List.map_cons, exisoExtract]
      rw [cmdUnpackArgs_default hl hdd hstem, g1 fuel (by omega)]
      exact k1 fuel (by omega)
    · intro y hy S content e
      rcases List.mem_cons.1 hy with rfl | hy
      · obtain ⟨m1, fs1', m2, m3, _⟩ :=
          stored_unpacks hfaults clones ⟨hw, hcwd⟩ e hfresh (hout y (by simp) y (by simp))
        have : fs1' = fs1 := by
          have a := g1 (max n1 m1 + 1) (by omega)
          rw [m2 (max n1 m1 + 1) (by omega)] at a
          exact congrArg Prod.snd a
        subst this
        -- what is below the first destination stays
        have keep : ∀ q, placeOf h y.2 <+: q → st q = fs1' q := by
          intro q hq
          apply Classical.byContradiction
          intro hne
          obtain ⟨z, hz, g | ⟨g, _, _⟩⟩ := k3 q hne
          · rcases List.prefix_or_prefix_of_prefix g hq with e | e
            · exact (hx z hz).2 e
            · exact (hx z hz).1 e
          · exact (hx z hz).1 (hq.trans (onTheWay_prefix (hdest z (by simp [hz])).2.2.1 g))
        have keep' : ∀ q, st (placeOf h y.2 ++ q) = fs1' (placeOf h y.2 ++ q) := fun q => keep _ (List.prefix_append _ _)
        obtain ⟨t1, t2, t3⟩ := m3
        refine ⟨fun p e he hd => ?_, fun p e he hd => ?_, fun q hq hne => ?_⟩
        · rw [List.append_assoc, keep', ← List.append_assoc]; exact t1 p e he hd
        · rw [List.append_assoc, keep', ← List.append_assoc]; exact t2 p e he hd
        · rw [keep'] at hne; exact t3 q hq hne
      · exact k2 y hy S content (keepImg y hy S content e)
    · intro q hq
      by_cases h1 : fs1 q = fs q
      · rw [← h1] at hq
        obtain ⟨y, hy, g | ⟨e1, e2, e3⟩⟩ := k3 q hq
        · exact ⟨y, by simp [hy], .inl g⟩
        · exact ⟨y, by simp [hy], .inr ⟨e1, by rw [← h1, e2], e3⟩⟩
      · rcases g3 q h1 with g | ⟨e1, e2, e3⟩
        · exact ⟨x, by simp, .inl g⟩
        · by_cases h2 : st q = fs1 q
          · exact ⟨x, by simp, .inr ⟨e1, e2, by rw [h2, e3]⟩⟩
          · obtain ⟨y, hy, g | ⟨_, e5, _⟩⟩ := k3 q h2
            · exact ⟨y, by simp [hy], .inl g⟩
            · rw [e3] at e5; cases e5

/-! ## Where the properties fail -/

/-- What unpacking an image with a single file comes down to. -/
theorem single_run {n : Str} {b img0 : Bytes} (hok : FlatOk [(n, b)]) (hn : n ≠ []) {s' : PackState ImgFile}
    (hpk : createImage (fileEnv (flatFs [(n, b)]) (fun _ => none)) 1 ⟨⟨img0, []⟩, []⟩ = (.ok (), s')) :
    ∃ d : DiskData, (∀ clones, RawImage.extract ⟨s'.dev.img, 0, clones⟩ d = .ok b) ∧
      RawImage.extract ⟨[], 0, true⟩ d = .ok [] ∧
      ∀ (h : Host) (clones : Bool) (fs fs1 : HostFs) (image dest : Str) (p : HostPath) (fuel : Nat), 2 < fuel →
        h.stat fs image = some (p, .file s'.dev.img) → h.createDirAll (pathJoin dest []) fs = (.ok (), fs1) →
        cmdUnpackArgs h clones fuel fs image (some dest) = h.writeFile (pathJoin (pathJoin dest []) n)
          (RawImage.extract ⟨if h.resolve fs1 (pathJoin (pathJoin dest []) n) = .ok p then [] else imageNow fs1 p, 0, clones⟩ d)
          fs1 := by
  obtain ⟨vol, d, h1, h2, h3, h4, h5⟩ := single_listing hok hpk
  have hag := offsetDev_zero (fileDev s'.dev.img)
  have hx : ∀ clones, (RawImage.mk s'.dev.img 0 clones).extract d.node.dirent = .ok b := fun clones =>
    extract_ok (by rw [← h5]; exact hag.readDataAll _)
  have hlen : d.node.dirent.nameLen ≠ 0 := by
    intro e
    have := fileTree_named (h2 3 (by omega)) _ (List.mem_singleton.2 rfl)
    rw [e] at this
    have hx0 : d.name = [] := List.eq_nil_of_length_eq_zero this
    rw [DirEnt.nameStr, hx0] at h3
    exact hn (by rw [← h3]; rfl)
  refine ⟨d.node.dirent, hx, ?_, ?_⟩
  · have hx1 := hx true
    unfold RawImage.extract at hx1 ⊢
    split at hx1
    · next he => rw [if_pos he]
    · next he =>
      rw [if_neg he]
      obtain ⟨off, e1, _⟩ := Res.bind_eq_ok.1 hx1
      rw [e1]
      simp [slice]
  · intro h clones fs fs1 image dest p fuel hf hst hc
    have ht : fileTree (offsetDev (fileDev s'.dev.img) 0) vol.root fuel = .ok [([], d)] := by
      rw [← h2 fuel hf]; exact hag.fileTree _ _
    unfold cmdUnpackArgs
    simp only [hst, offsetNew_zero h1]
    rw [hag.readVolume, h1]
    simp only [ht, copyoutLoopAt, copyoutEntryAt]
    rw [show trimSlashes [] = [] from rfl, hc]
    simp only
    rw [if_neg (by rw [h4]; decide), if_neg hlen, h3]
    generalize h.writeFile _ _ fs1 = w
    obtain ⟨r, w⟩ := w
    cases r <;> rfl

/-- An image that contains a file called like itself. -/
theorem ownName_ok : FlatOk [(['g', '.', 'i', 's', 'o'], [7])] :=
  ascii_flatOk (by unfold DistinctNames; decide) (by decide) (by decide) (by decide)

/-- C86 is false: an image `g.iso` in the working directory that contains a file `g.iso` is itself overwritten by
`unpack g.iso .`.  Where files are cloned by the host the command even reports success, and the image is empty. -/
theorem C86_image_kept_false (img0 : Bytes) : ∃ s',
    createImage (fileEnv (flatFs [(['g', '.', 'i', 's', 'o'], [7])]) (fun _ => none)) 1 ⟨⟨img0, []⟩, []⟩ = (.ok (), s') ∧
    WellFormedHost (sampleHostFs.set [['w'], ['g', '.', 'i', 's', 'o']] (.file s'.dev.img)) ∧
    ∃ st, (∀ fuel, 2 < fuel → cmdUnpackArgs sampleHost true fuel
        (sampleHostFs.set [['w'], ['g', '.', 'i', 's', 'o']] (.file s'.dev.img)) ['g', '.', 'i', 's', 'o'] (some ['.']) =
        (.ok (), st)) ∧
      IsFile st [['w'], ['g', '.', 'i', 's', 'o']] [] := by
  obtain ⟨s', hpk⟩ := flat_packs ownName_ok img0
  obtain ⟨d, _, hd, hrun⟩ := single_run ownName_ok (by decide) hpk
  refine ⟨s', hpk, ?_, (sampleHostFs.set [['w'], ['g', '.', 'i', 's', 'o']] (.file s'.dev.img)).set
    [['w'], ['g', '.', 'i', 's', 'o']] (.file []), fun fuel hf => ?_, set_same _ _ _⟩
  · exact WellFormedHost.set sampleHost_wf (.inl (by decide)) (.inr (by decide))
  · rw [hrun sampleHost true _ _ _ ['.'] [['w'], ['g', '.', 'i', 's', 'o']] fuel hf rfl rfl]
    have hr : sampleHost.resolve (sampleHostFs.set [['w'], ['g', '.', 'i', 's', 'o']] (.file s'.dev.img))
        (pathJoin (pathJoin ['.'] []) ['g', '.', 'i', 's', 'o']) = .ok [['w'], ['g', '.', 'i', 's', 'o']] := rfl
    rw [if_pos hr, hd]
    rfl

/-- Directories `/a`, `/b` and the working directory `/w`. -/
def shelves : HostFs := fun q => if q = [] ∨ q = [['w']] ∨ q = [['a']] ∨ q = [['b']] then some .dir else none

theorem shelves_wf : WellFormedHost shelves := by
  refine ⟨by decide, ?_⟩
  intro q c h
  simp only [shelves] at h ⊢
  split at h
  · next hq =>
    have : q = [] := by
      rcases hq with hq | hq | hq | hq
      · simp at hq
      all_goals exact (List.append_inj' (s₁ := q) (s₂ := []) hq rfl).1
    rw [this]; decide
  · exact absurd rfl h

/-- The shelves with an image in `/a/g.iso` and one in `/b/` under the given name. -/
def shelved (name : Str) (i j : Bytes) : HostFs :=
  (shelves.set [['a'], ['g', '.', 'i', 's', 'o']] (.file i)).set [['b'], name] (.file j)

theorem shelved_wf {name : Str} (i j : Bytes) : WellFormedHost (shelved name i j) := by
  refine WellFormedHost.set (WellFormedHost.set shelves_wf (.inl (by decide)) (.inr (by decide))) (.inl ?_) (.inr ?_)
  · rw [set_other (by simp)]
    simp [shelves]
  · rw [set_other (by simp)]
    rfl

theorem a1_single : FlatOk [(['a'], [1])] :=
  ascii_flatOk (by unfold DistinctNames; decide) (by decide) (by decide) (by decide)

theorem a2_single : FlatOk [(['a'], [2])] :=
  ascii_flatOk (by unfold DistinctNames; decide) (by decide) (by decide) (by decide)

theorem single_from {n : Str} {b img0 : Bytes} {s' : PackState ImgFile} (hok : FlatOk [(n, b)]) (hn : HostName n)
    (hpk : createImage (fileEnv (flatFs [(n, b)]) (fun _ => none)) 1 ⟨⟨img0, []⟩, []⟩ = (.ok (), s')) :
    PackedFrom s'.dev.img (flatFs [(n, b)]) (flatContent [(n, b)]) := by
  refine ⟨⟨_, _, _, _, hpk, rfl⟩, flat_bounded _, flat_faithful hok.distinct, fun p e he => ?_⟩
  obtain ⟨_, x, hx, rfl⟩ := (flat_entries p e).1 he
  rw [List.mem_singleton.1 hx]
  exact hn

/-- C87 is false: extract mode on `/a/g.iso` and `/b/g.iso` succeeds, but both go to `g` in the working directory, and
the file of the first image has been replaced by that of the second. -/
theorem C87_extract_false (clones : Bool) : ∃ i j,
    PackedFrom i (flatFs [(['a'], [1])]) (flatContent [(['a'], [1])]) ∧
    PackedFrom j (flatFs [(['a'], [2])]) (flatContent [(['a'], [2])]) ∧
    ∃ st, (∀ fuel, 2 < fuel → exisoExtract sampleHost clones fuel none
        [['/', 'a', '/', 'g', '.', 'i', 's', 'o'], ['/', 'b', '/', 'g', '.', 'i', 's', 'o']]
        (shelved ['g', '.', 'i', 's', 'o'] i j) = (.ok (), st)) ∧
      ¬ ∃ dest, TreeAt st dest (flatFs [(['a'], [1])]).readDir (flatContent [(['a'], [1])]) := by
  obtain ⟨s1, hp1⟩ := flat_packs a1_single []
  obtain ⟨s2, hp2⟩ := flat_packs a2_single []
  obtain ⟨d1, hd1, _, hrun1⟩ := single_run a1_single (by decide) hp1
  obtain ⟨d2, hd2, _, hrun2⟩ := single_run a2_single (by decide) hp2
  have f1 := single_from a1_single (by unfold HostName; decide) hp1
  have f2 := single_from a2_single (by unfold HostName; decide) hp2
  generalize s1.dev.img = i at f1 hd1 hrun1
  generalize s2.dev.img = j at f2 hd2 hrun2
  let g : Str := ['g']
  let fs0 := shelved ['g', '.', 'i', 's', 'o'] i j
  let fs1 := (fs0.set [['w'], ['g']] .dir).set [['w'], ['g'], ['a']] (.file [1])
  let fs2 := fs1.set [['w'], ['g'], ['a']] (.file [2])
  have dd : ∀ b : Str, fileName ('/' :: b ++ ['/', 'g', '.', 'i', 's', 'o']) = some ['g', '.', 'i', 's', 'o'] →
      ∀ fuel fs, cmdUnpackArgs sampleHost clones fuel fs ('/' :: b ++ ['/', 'g', '.', 'i', 's', 'o']) none =
        cmdUnpackArgs sampleHost clones fuel fs ('/' :: b ++ ['/', 'g', '.', 'i', 's', 'o']) (some ['g']) := by
    intro b hb fuel fs
    unfold cmdUnpackArgs
    rw [hb]
    rfl
  have e1 : ∀ fuel, 2 < fuel → cmdUnpackArgs sampleHost clones fuel fs0 ['/', 'a', '/', 'g', '.', 'i', 's', 'o']
      (some ['g']) = (.ok (), fs1) := by
    intro fuel hf
    rw [hrun1 sampleHost clones fs0 (fs0.set [['w'], ['g']] .dir) _ ['g'] [['a'], ['g', '.', 'i', 's', 'o']] fuel hf rfl rfl]
    have hr : sampleHost.resolve (fs0.set [['w'], ['g']] .dir) (pathJoin (pathJoin ['g'] []) ['a']) =
        .ok [['w'], ['g'], ['a']] := rfl
    rw [hr, if_neg (by decide), show imageNow (fs0.set [['w'], ['g']] .dir) [['a'], ['g', '.', 'i', 's', 'o']] = i from rfl,
      hd1]
    rfl
  have e2 : ∀ fuel, 2 < fuel → cmdUnpackArgs sampleHost clones fuel fs1 ['/', 'b', '/', 'g', '.', 'i', 's', 'o']
      (some ['g']) = (.ok (), fs2) := by
    intro fuel hf
    rw [hrun2 sampleHost clones fs1 fs1 _ ['g'] [['b'], ['g', '.', 'i', 's', 'o']] fuel hf rfl rfl]
    have hr : sampleHost.resolve fs1 (pathJoin (pathJoin ['g'] []) ['a']) = .ok [['w'], ['g'], ['a']] := rfl
    rw [hr, if_neg (by decide), show imageNow fs1 [['b'], ['g', '.', 'i', 's', 'o']] = j from rfl, hd2]
    rfl
  refine ⟨i, j, f1, f2, fs2, fun fuel hf => ?_, ?_⟩
  · have k1 := dd ['a'] rfl fuel fs0
    have k2 := dd ['b'] rfl fuel fs1
    simp only [List.cons_append, List.nil_append] at k1 k2
    simp only [exisoExtract, k1, k2, e1 fuel hf, e2 fuel hf, fs0]
  · rintro ⟨dest, _, t2, _⟩
    have h1 := t2 [] ⟨['a'], false, 1⟩ ((flat_entries _ _).2 ⟨rfl, _, List.mem_singleton.2 rfl, rfl⟩) rfl
    rw [show flatContent [(['a'], [1])] ([] ++ [['a']]) = [1] from rfl, List.append_nil] at h1
    have last : ∀ {l c : Str}, c ≠ ['a'] → dest ++ [['a']] ≠ [l, c] := by
      intro l c hc he
      exact hc (by simpa using (List.append_inj' (s₁ := dest) (s₂ := [l]) he rfl).2.symm)
    have h2 : fs2 (dest ++ [['a']]) = some (.file [1]) := h1
    by_cases hq : dest ++ [['a']] = [['w'], ['g'], ['a']]
    · rw [hq] at h2
      simp only [fs2, set_same] at h2
      cases h2
    · simp only [fs2, fs1, fs0, shelved] at h2
      rw [set_other hq, set_other hq, set_other (last (by decide)),
        set_other (last (by decide)), set_other (last (by decide))] at h2
      unfold shelves at h2
      split at h2 <;> cases h2

/-! ## C88: unpacking without a destination -/

theorem stepsFrom_dots : ∀ (cs : List Str) (cur : HostPath),
    stepsFrom cur cs = stepsFrom cur (cs.filter (fun c => decide (c ≠ ['.']))) := by
  intro cs
  induction cs with
  | nil => intro cur; rfl
  | cons c cs ih =>
    intro cur
    by_cases h : c = ['.']
    · rw [List.filter_cons_of_neg (by simp [h])]
      simp only [stepsFrom, if_pos h]
      exact ih cur
    · rw [List.filter_cons_of_pos (by simp [h])]
      simp only [stepsFrom, if_neg h]
      split
      · exact ih _
      · exact ih _

theorem stepsFrom_append : ∀ (a b : List Str) (cur : HostPath), stepsFrom cur (a ++ b) = stepsFrom (stepsFrom cur a) b := by
  intro a
  induction a with
  | nil => intro b cur; rfl
  | cons c cs ih =>
    intro b cur
    simp only [List.cons_append, stepsFrom]
    split
    · exact ih b _
    · split
      · exact ih b _
      · exact ih b _

/-- A path that names a file ends in a name. -/
theorem file_has_name {h : Host} {fs : HostFs} (hs : Sane h fs) {image : Str} {p : HostPath} {img : Bytes}
    (hst : h.stat fs image = some (p, .file img)) : ∃ name, LastComponent image name ∧ name ≠ ['.', '.'] := by
  obtain ⟨s1, s2, s3⟩ := stat_some hst
  rw [s2, placeOf, stepsFrom_dots] at s3
  rcases List.eq_nil_or_concat ((hostComps image).filter (fun c => decide (c ≠ ['.']))) with e | ⟨b, c, e⟩
  · rw [e] at s3
    simp only [stepsFrom] at s3
    rw [start_dir hs.wf hs.cwd] at s3
    cases s3
  · rw [List.concat_eq_append] at e
    refine ⟨c, ⟨b, e⟩, ?_⟩
    rintro rfl
    rw [e, stepsFrom_append] at s3
    simp only [stepsFrom, if_true] at s3
    rw [if_neg (by decide)] at s3
    obtain ⟨l1, l2, e1, e2, e3⟩ := List.filter_eq_append_iff.1 e
    obtain ⟨m1, m2, f1, f2, f3, f4⟩ := List.filter_eq_cons_iff.1 e3
    have hk := hostWalk_dirs _ _ (resolve_walk s1) (l1 ++ m1).length (by
      rw [e1, f1]; simp only [List.length_append, List.length_cons]; omega)
    rw [show (hostComps image).take (l1 ++ m1).length = l1 ++ m1 by
      rw [e1, f1, ← List.append_assoc, List.take_left], stepsFrom_dots, List.filter_append, e2,
      List.filter_eq_nil_iff.2 f2, List.append_nil] at hk
    rw [WellFormedHost.dropLast hs.wf hk] at s3
    cases s3

theorem stem_exists (name : Str) (h : name ≠ ['.', '.']) : ∃ stem, HasStem name stem := ⟨_, splitExt_stem name h⟩

/-- A name that is not in use in the working directory is a fresh destination. -/
theorem fresh_name {h : Host} {fs : HostFs} (hs : Sane h fs) {dest : Str} (hn : HostName dest)
    (hnone : fs (h.cwd ++ [dest]) = none) :
    placeOf h dest = h.cwd ++ [dest] ∧ (∀ q, h.cwd ++ [dest] <+: q → fs q = none) ∧
      (∀ q, OnTheWay h dest q → q = h.cwd ∨ q = h.cwd ++ [dest]) ∧ FreshDest h dest fs := by
  obtain ⟨n1, n2, n3, n4, n5⟩ := hn
  have hcs : hostComps dest = [dest] := hostComps_plain n2 n1
  have hstart : h.start dest = h.cwd := by
    unfold Host.start
    rw [if_neg]
    intro he
    cases dest with
    | nil => simp at he
    | cons c cs => simp at he; exact n2 (by simp [he])
  have hplace : placeOf h dest = h.cwd ++ [dest] := by
    unfold placeOf
    rw [hcs, hstart]
    simp only [stepsFrom, if_neg n4, if_neg n5]
  have hbelow : ∀ q, h.cwd ++ [dest] <+: q → fs q = none := by
    rintro q ⟨r, rfl⟩
    by_cases hr : r = []
    · rw [hr, List.append_nil]; exact hnone
    · apply Classical.byContradiction
      intro hne
      have := WellFormedHost.prefix hs.wf r _ hr hne
      rw [hnone] at this
      cases this
  have hway : ∀ q, OnTheWay h dest q → q = h.cwd ∨ q = h.cwd ++ [dest] := by
    rintro q ⟨k, rfl⟩
    rw [hcs, hstart]
    cases k with
    | zero => exact .inl rfl
    | succ k =>
      right
      simp only [List.take_succ_cons, List.take_nil, stepsFrom, if_neg n4, if_neg n5]
  have hfresh : FreshDest h dest fs := by
    refine ⟨n3, by rw [hcs]; simp only [List.mem_singleton]; exact fun e => n5 e.symm, by rw [hstart]; exact hs.cwd, ?_, ?_⟩
    · intro q hq
      rcases hway q hq with rfl | rfl
      · exact .inr hs.cwd
      · exact .inl hnone
    · intro q hq _
      rw [hplace] at hq
      exact hbelow q hq
  exact ⟨hplace, hbelow, hway, hfresh⟩

/-- C88 for images whose name has an extension: every path that names a file has a default destination, and if nothing
with that name exists in the working directory then unpacking without a destination restores the image there and changes
nothing else.  What is missing from C88 are images in the working directory without an extension, and paths that name no
file: see `C88_default_false`. -/
theorem C88_default_partial (h : Host) (hfaults : ∀ p, h.faults p = .none) (clones : Bool) {fs : HostFs}
    (hw : WellFormedHost fs) (hcwd : fs h.cwd = some .dir) {image : Str} {S : SourceFs} {content : Path → Bytes}
    (hst : StoredImage h fs image S content) :
    ∃ dest, DefaultDest image dest ∧ (HostName dest → fs (h.cwd ++ [dest]) = none →
      ∃ n st, (∀ fuel, n < fuel → cmdUnpackArgs h clones fuel fs image none = (.ok (), st)) ∧
        TreeAt st (h.cwd ++ [dest]) S.readDir content ∧ ∀ q, ¬ h.cwd ++ [dest] <+: q → st q = fs q) := by
  have hs : Sane h fs := ⟨hw, hcwd⟩
  obtain ⟨p, img, hstat, _⟩ := id hst
  obtain ⟨name, hl, hdd⟩ := file_has_name hs hstat
  obtain ⟨dest, hstem⟩ := stem_exists name hdd
  refine ⟨dest, ⟨name, hl, hdd, hstem⟩, fun hn hnone => ?_⟩
  obtain ⟨hplace, hbelow, hway, hfresh⟩ := fresh_name hs hn hnone
  have hout : ¬ placeOf h dest <+: placeOf h image := by
    rw [hplace, ← (stat_some hstat).2.1]
    intro hq
    have := hbelow p hq
    rw [(stat_some hstat).2.2] at this
    cases this
  obtain ⟨n, st, g1, g2, g3, g4, g5⟩ := stored_unpacks hfaults clones hs hst hfresh hout
  rw [hplace] at g2
  refine ⟨n, st, fun fuel hf => ?_, g2, fun q hq => ?_⟩
  · rw [cmdUnpackArgs_default hl hdd hstem]; exact g1 fuel hf
  · apply Classical.byContradiction
    intro hne
    rcases g3 q hne with g | ⟨g, e, _⟩
    · rw [hplace] at g; exact hq g
    · rcases hway q g with rfl | rfl
      · rw [hcwd] at e; cases e
      · exact hq (List.prefix_refl _)

/-- C88 is false: an image `g` in the working directory cannot be unpacked without a destination, because that would be
`g` as well, although the same image can be unpacked under any other name; and a path without a file name, such as `..`,
makes the command panic instead of failing. -/
theorem C88_default_false (clones : Bool) : ∃ img,
    PackedFrom img (flatFs [(['a'], [1])]) (flatContent [(['a'], [1])]) ∧
    (∀ fuel, 2 < fuel → cmdUnpackArgs sampleHost clones fuel (sampleHostFs.set [['w'], ['g']] (.file img)) ['g'] none =
      (.err .io, sampleHostFs.set [['w'], ['g']] (.file img))) ∧
    ∀ fuel fs, cmdUnpackArgs sampleHost clones fuel fs ['.', '.'] none = (.panic, fs) ∧
      cmdUnpackArgs sampleHost clones fuel fs ['/'] none = (.panic, fs) := by
  obtain ⟨s', hpk⟩ := flat_packs a1_single []
  obtain ⟨vol, d, h1, h2, h3, h4, h5⟩ := single_listing a1_single hpk
  refine ⟨s'.dev.img, single_from a1_single (by unfold HostName; decide) hpk, fun fuel hf => ?_, fun fuel fs => ⟨rfl, rfl⟩⟩
  have hag := offsetDev_zero (fileDev s'.dev.img)
  have ht : fileTree (offsetDev (fileDev s'.dev.img) 0) vol.root fuel = .ok [([], d)] := by
    rw [← h2 fuel hf]; exact hag.fileTree _ _
  rw [cmdUnpackArgs_default (name := ['g']) (stem := ['g']) ⟨[], by decide⟩ (by decide) (.inr ⟨rfl, by decide⟩)]
  unfold cmdUnpackArgs
  have hst : sampleHost.stat (sampleHostFs.set [['w'], ['g']] (.file s'.dev.img)) ['g'] =
      some ([['w'], ['g']], .file s'.dev.img) := rfl
  simp only [hst, offsetNew_zero h1]
  rw [hag.readVolume, h1]
  simp only [ht, copyoutLoopAt, copyoutEntryAt]
  have hc : sampleHost.createDirAll (pathJoin ['g'] (trimSlashes [])) (sampleHostFs.set [['w'], ['g']] (.file s'.dev.img)) =
      (.err .io, sampleHostFs.set [['w'], ['g']] (.file s'.dev.img)) := rfl
  rw [hc]

/-! ## The hypotheses hold -/

/-- The hypotheses of C86 hold for `unpack g.iso out`. -/
example (clones : Bool) : ∃ s' n,
    createImage (fileEnv (flatFs [(['g', '.', 'i', 's', 'o'], [7])]) (fun _ => none)) 1 ⟨⟨[], []⟩, []⟩ = (.ok (), s') ∧
    ∀ fuel, n < fuel → IsFile (cmdUnpackArgs sampleHost clones fuel
        (sampleHostFs.set [['w'], ['g', '.', 'i', 's', 'o']] (.file s'.dev.img)) ['g', '.', 'i', 's', 'o']
        (some ['o', 'u', 't'])).2 [['w'], ['g', '.', 'i', 's', 'o']] s'.dev.img := by
  obtain ⟨s', hpk⟩ := flat_packs ownName_ok []
  obtain ⟨n, hn⟩ := packedFrom_noSlash (single_from ownName_ok (by unfold HostName; decide) hpk)
  refine ⟨s', n, hpk, fun fuel hf => ?_⟩
  have hst : sampleHost.stat (sampleHostFs.set [['w'], ['g', '.', 'i', 's', 'o']] (.file s'.dev.img))
      ['g', '.', 'i', 's', 'o'] = some ([['w'], ['g', '.', 'i', 's', 'o']], .file s'.dev.img) := rfl
  exact (C86_image_kept_partial sampleHost clones fuel
    (WellFormedHost.set sampleHost_wf (.inl (by decide)) (.inr (by decide))) rfl hst (hn fuel hf) (by decide)).1

/-- The hypotheses of C87 hold for `/a/g.iso` and `/b/h.iso`. -/
example (clones : Bool) : ∃ i j n st, (∀ fuel, n < fuel → exisoExtract sampleHost clones fuel none
      [['/', 'a', '/', 'g', '.', 'i', 's', 'o'], ['/', 'b', '/', 'h', '.', 'i', 's', 'o']]
      (shelved ['h', '.', 'i', 's', 'o'] i j) = (.ok (), st)) ∧
    st [['w'], ['g'], ['a']] = some (.file [1]) ∧ st [['w'], ['h'], ['a']] = some (.file [2]) ∧
    st [['a'], ['g', '.', 'i', 's', 'o']] = some (.file i) := by
  obtain ⟨s1, hp1⟩ := flat_packs a1_single []
  obtain ⟨s2, hp2⟩ := flat_packs a2_single []
  have f1 := single_from a1_single (by unfold HostName; decide) hp1
  have f2 := single_from a2_single (by unfold HostName; decide) hp2
  generalize s1.dev.img = i at f1
  generalize s2.dev.img = j at f2
  have hs : Sane sampleHost (shelved ['h', '.', 'i', 's', 'o'] i j) := ⟨shelved_wf i j, rfl⟩
  have i1 : StoredImage sampleHost (shelved ['h', '.', 'i', 's', 'o'] i j) ['/', 'a', '/', 'g', '.', 'i', 's', 'o'] _ _ :=
    ⟨[['a'], ['g', '.', 'i', 's', 'o']], i, rfl, f1⟩
  have i2 : StoredImage sampleHost (shelved ['h', '.', 'i', 's', 'o'] i j) ['/', 'b', '/', 'h', '.', 'i', 's', 'o'] _ _ :=
    ⟨[['b'], ['h', '.', 'i', 's', 'o']], j, rfl, f2⟩
  have p1 := fresh_name hs (dest := ['g']) (by unfold HostName; decide) rfl
  have p2 := fresh_name hs (dest := ['h']) (by unfold HostName; decide) rfl
  have d1 : DefaultDest ['/', 'a', '/', 'g', '.', 'i', 's', 'o'] ['g'] :=
    ⟨['g', '.', 'i', 's', 'o'], ⟨[['a']], by decide⟩, by decide, .inl ⟨['i', 's', 'o'], by decide, by decide, by decide⟩⟩
  have d2 : DefaultDest ['/', 'b', '/', 'h', '.', 'i', 's', 'o'] ['h'] :=
    ⟨['h', '.', 'i', 's', 'o'], ⟨[['b']], by decide⟩, by decide, .inl ⟨['i', 's', 'o'], by decide, by decide, by decide⟩⟩
  obtain ⟨n, st, k1, k2, k3⟩ := C87_extract_partial sampleHost (fun _ => rfl) clones
    [(['/', 'a', '/', 'g', '.', 'i', 's', 'o'], ['g']), (['/', 'b', '/', 'h', '.', 'i', 's', 'o'], ['h'])] hs.wf hs.cwd
    (by
      intro x hx
      simp only [List.mem_cons, List.not_mem_nil, or_false] at hx
      rcases hx with rfl | rfl
      · exact ⟨_, _, i1⟩
      · exact ⟨_, _, i2⟩)
    (by
      intro x hx
      simp only [List.mem_cons, List.not_mem_nil, or_false] at hx
      rcases hx with rfl | rfl
      · exact ⟨d1, p1.2.2.2⟩
      · exact ⟨d2, p2.2.2.2⟩)
    (by decide) (by decide)
  have t1 := k2 (['/', 'a', '/', 'g', '.', 'i', 's', 'o'], ['g']) (by simp) _ _ i1
  have t2 := k2 (['/', 'b', '/', 'h', '.', 'i', 's', 'o'], ['h']) (by simp) _ _ i2
  refine ⟨i, j, n, st, k1, ?_, ?_, ?_⟩
  · have := t1.2.1 [] ⟨['a'], false, 1⟩ ((flat_entries _ _).2 ⟨rfl, _, List.mem_singleton.2 rfl, rfl⟩) rfl
    rw [p1.1] at this
    exact this
  · have := t2.2.1 [] ⟨['a'], false, 1⟩ ((flat_entries _ _).2 ⟨rfl, _, List.mem_singleton.2 rfl, rfl⟩) rfl
    rw [p2.1] at this
    exact this
  · apply Classical.byContradiction
    intro hne
    obtain ⟨x, hx, g | ⟨_, g, _⟩⟩ := k3 [['a'], ['g', '.', 'i', 's', 'o']] hne
    · simp only [List.mem_cons, List.not_mem_nil, or_false] at hx
      rcases hx with rfl | rfl <;> (revert g; decide)
    · cases g

/-- The hypotheses of C88 hold for `unpack /a/g.iso`. -/
example (clones : Bool) : ∃ i n st, (∀ fuel, n < fuel → cmdUnpackArgs sampleHost clones fuel
      (shelved ['h', '.', 'i', 's', 'o'] i []) ['/', 'a', '/', 'g', '.', 'i', 's', 'o'] none = (.ok (), st)) ∧
    st [['w'], ['g'], ['a']] = some (.file [1]) := by
  obtain ⟨s1, hp1⟩ := flat_packs a1_single []
  have f1 := single_from a1_single (by unfold HostName; decide) hp1
  generalize s1.dev.img = i at f1
  have i1 : StoredImage sampleHost (shelved ['h', '.', 'i', 's', 'o'] i []) ['/', 'a', '/', 'g', '.', 'i', 's', 'o'] _ _ :=
    ⟨[['a'], ['g', '.', 'i', 's', 'o']], i, rfl, f1⟩
  obtain ⟨dest, ⟨name, hl, _, hst⟩, hrun⟩ := C88_default_partial sampleHost (fun _ => rfl) clones (shelved_wf i []) rfl i1
  have hname : name = ['g', '.', 'i', 's', 'o'] := by
    obtain ⟨b, hb⟩ := hl
    have : [['a'], ['g', '.', 'i', 's', 'o']] = b ++ [name] := by rw [← hb]; decide
    simpa using (List.append_inj' (s₁ := [['a']]) this rfl).2.symm
  subst hname
  have hd : dest = ['g'] := HasStem.unique hst (.inl ⟨['i', 's', 'o'], by decide, by decide, by decide⟩)
  subst hd
  obtain ⟨n, st, k1, k2, _⟩ := hrun (by unfold HostName; decide) rfl
  exact ⟨i, n, st, k1, k2.2.1 [] ⟨['a'], false, 1⟩ ((flat_entries _ _).2 ⟨rfl, _, List.mem_singleton.2 rfl, rfl⟩) rfl⟩

end Xdvdfs.Props
