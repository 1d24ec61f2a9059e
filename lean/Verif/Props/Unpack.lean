import Verif.Proof.CopyOut
import Verif.Props.Flat
import Verif.Props.Repack

/-!
# Properties of copying files out of an image (C45, C46, C65, C66)
-/

namespace Xdvdfs.Props
open Xdvdfs Spec

/-! ## C45: unpacking a packed tree restores it -/

/-- C45: packing a tree whose names are names for the host and unpacking the image into a fresh place
succeeds and recreates the tree there: every directory, every file with its content, and nothing else.
Nothing outside that place changes except that missing directories on the way to it are created. -/
theorem C45_unpack_restores {fs : SourceFs} {content : Path → Bytes} (hb : Bounded fs)
    (hf : FaithfulTo fs content) {faults : Faults} {fuel : Nat} {img0 : Bytes} {s' : PackState ImgFile}
    (hpack : createImage (fileEnv fs faults) fuel ⟨⟨img0, []⟩, []⟩ = (.ok (), s'))
    (hnames : ∀ p e, EntryIn fs.readDir p e → HostName e.name)
    (h : Host) (hfaults : ∀ p, h.faults p = .none) (dest : Str) (host : HostFs) (hfresh : FreshDest h dest host)
    (clones : Bool) :
    ∃ n host', (∀ ufuel, n < ufuel → cmdUnpack h s'.dev.img clones dest ufuel host = (.ok (), host')) ∧
      TreeAt host' (placeOf h dest) fs.readDir content ∧ ChangesOnlyInside h dest host host' := by
  obtain ⟨M, Loc, l0, hP⟩ := pack_packed hb hf hpack
  obtain ⟨vol, h1, _, _, _, h2⟩ := pack_success hb hf hpack
  have hag := offsetDev_zero (fileDev s'.dev.img)
  have hl : ListsFrom (RawImage.dev ⟨s'.dev.img, 0, clones⟩) vol.root fs.readDir content :=
    (ListsTree.from h2).agree hag
  obtain ⟨n, host', g1, g2, g3⟩ := copyout_restores hfaults (r := ⟨s'.dev.img, 0, clones⟩) hfresh hl hP.distinct hnames
  refine ⟨n, host', fun ufuel hu => ?_, g2, g3⟩
  unfold cmdUnpack
  rw [offsetNew_zero h1]
  simp only
  rw [hag.readVolume, h1]
  exact g1 ufuel hu

/-- A host with a working directory `/w` and an empty directory `/w/out`. -/
def sampleHost : Host := ⟨[['w']], fun _ => .none⟩

def sampleHostFs : HostFs := fun q =>
  if q = [] ∨ q = [['w']] ∨ q = [['w'], ['o', 'u', 't']] then some .dir else none

theorem sample_fresh : FreshDest sampleHost ['o', 'u', 't'] sampleHostFs := by
  refine ⟨by decide, by decide, by decide, ?_, ?_⟩
  · rintro q ⟨k, rfl⟩
    right
    match k with
    | 0 => decide
    | k + 1 =>
      have : (hostComps ['o', 'u', 't']).take (k + 1) = [['o', 'u', 't']] := by
        rw [show hostComps ['o', 'u', 't'] = [['o', 'u', 't']] by decide]; simp
      rw [this]; decide
  · rintro q ⟨t, rfl⟩ hne
    have hp : placeOf sampleHost ['o', 'u', 't'] = [['w'], ['o', 'u', 't']] := by decide
    rw [hp] at hne ⊢
    cases t with
    | nil => exact absurd rfl hne
    | cons c cs => simp [sampleHostFs]

theorem sample_hostNames : ∀ p e, EntryIn sampleFs'.readDir p e → HostName e.name := by
  intro p e he
  rcases (sample_entries p e).1 he with ⟨rfl, rfl⟩ | ⟨rfl, rfl⟩ | ⟨rfl, rfl⟩ <;> (unfold HostName; decide)

/-- The hypotheses of C45 hold for the sample source and an empty directory `out`; the file in the
subdirectory reappears with its content, and nothing else appears. -/
example (img0 : Bytes) (clones : Bool) : ∃ s' n host',
    createImage (fileEnv sampleFs' (fun _ => none)) 2 ⟨⟨img0, []⟩, []⟩ = (.ok (), s') ∧
    (∀ fuel, n < fuel → cmdUnpack sampleHost s'.dev.img clones ['o', 'u', 't'] fuel sampleHostFs = (.ok (), host')) ∧
    host' [['w'], ['o', 'u', 't'], ['A'], ['c']] = some (.file [1, 2, 3]) ∧
    host' [['w'], ['o', 'u', 't'], ['x']] = none := by
  obtain ⟨s', h⟩ := sample_packs img0
  obtain ⟨n, host', h1, ⟨_, h3, h4⟩, _⟩ := C45_unpack_restores sample'_bounded sample'_faithful h sample_hostNames
    sampleHost (fun _ => rfl) ['o', 'u', 't'] sampleHostFs sample_fresh clones
  have hp : placeOf sampleHost ['o', 'u', 't'] = [['w'], ['o', 'u', 't']] := by decide
  rw [hp] at h3 h4
  refine ⟨s', n, host', h, h1, ?_, ?_⟩
  · exact h3 [['A']] ⟨['c'], false, 3⟩ ((sample_entries _ _).2 (.inr (.inr ⟨rfl, rfl⟩))) rfl
  · cases hx : host' [['w'], ['o', 'u', 't'], ['x']] with
    | none => rfl
    | some v =>
      obtain ⟨p, e, he, hpe⟩ := h4 [['x']] (by simp) (by
        show host' [['w'], ['o', 'u', 't'], ['x']] ≠ none
        rw [hx]; simp)
      rcases (sample_entries p e).1 he with ⟨rfl, rfl⟩ | ⟨rfl, rfl⟩ | ⟨rfl, rfl⟩ <;> cases hpe

/-! ## C46: unpacking stays inside the destination -/

/-- C46 for images without a slash in a name: whatever else the image contains, and whatever faults
occur, unpacking changes nothing outside the destination except that missing directories on the way to
it may be created.  What is missing from C46 is that names with slashes are rejected: see
`C46_unpack_contained_false`. -/
theorem C46_unpack_contained_partial (h : Host) (img : Bytes) (clones : Bool) (dest : Str) (fuel : Nat)
    (host : HostFs) (hw : WellFormedHost host) (hcwd : host h.cwd = some .dir)
    (hnames : ∀ base vol tree, offsetNew (fileDev img) = .ok base →
      readVolume (offsetDev (fileDev img) base) = .ok vol →
      fileTree (offsetDev (fileDev img) base) vol.root fuel = .ok tree → ∀ x ∈ tree, '/' ∉ x.2.nameStr) :
    ChangesOnlyInside h dest host (cmdUnpack h img clones dest fuel host).2 := by
  unfold cmdUnpack
  split
  · next base hb =>
    split
    · next vol hv =>
      unfold copyoutDirectory
      split
      · next tree ht =>
        exact copyoutLoop_contained tree [] host rfl ⟨hw, hcwd⟩ (fileTree_parents ht)
          (hnames base vol tree hb hv ht) (by simp)
      · exact ChangesOnlyInside.refl _ _ _
      · exact ChangesOnlyInside.refl _ _ _
      · exact ChangesOnlyInside.refl _ _ _
    · exact ChangesOnlyInside.refl _ _ _
    · exact ChangesOnlyInside.refl _ _ _
    · exact ChangesOnlyInside.refl _ _ _
  · exact ChangesOnlyInside.refl _ _ _
  · exact ChangesOnlyInside.refl _ _ _
  · exact ChangesOnlyInside.refl _ _ _

/-- A file name with a slash and a parent reference. -/
def climbing : List (Str × Bytes) := [(['.', '.', '/', 'x'], [7])]

theorem ascii_inCp1252 {c : Char} (h : c.toNat < 0x80) : InCp1252 c := by
  refine ⟨c.toNat, by omega, ?_⟩
  unfold cp1252Char
  rw [if_neg (by omega)]
  exact Char.ofNat_toNat c

theorem climbing_ok : FlatOk climbing := by
  refine ⟨by simp [DistinctNames, climbing], ?_, ?_, by decide⟩
  · intro x hx
    simp only [climbing, List.mem_singleton] at hx
    subst hx
    refine ⟨by decide, fun c hc => ascii_inCp1252 ?_⟩
    revert c; decide
  · intro x hx
    simp only [climbing, List.mem_singleton] at hx
    subst hx; decide

/-- The listing of an image packed from a single file. -/
theorem single_listing {n : Str} {b img0 : Bytes} (hok : FlatOk [(n, b)]) {faults : Faults} {fuel : Nat}
    {s' : PackState ImgFile}
    (h : createImage (fileEnv (flatFs [(n, b)]) faults) fuel ⟨⟨img0, []⟩, []⟩ = (.ok (), s')) :
    ∃ vol d, readVolume (fileDev s'.dev.img) = .ok vol ∧
      (∀ wf, 2 < wf → fileTree (fileDev s'.dev.img) vol.root wf = .ok [([], d)]) ∧ d.nameStr = n ∧
      d.node.dirent.isDirectory = false ∧ readDataAll (fileDev s'.dev.img) d.node.dirent = .ok b := by
  obtain ⟨vol, h1, _, _, _, all, a1, a2, listed, a3, a4⟩ :=
    pack_success (flat_bounded _) (flat_faithful hok.distinct) h
  have hall : all = [([], ⟨n, false, b.length⟩)] := by
    have hm : ∀ x, x ∈ all ↔ x = ([], ⟨n, false, b.length⟩) := by
      rintro ⟨p, e⟩
      rw [a2, flat_entries]
      constructor
      · rintro ⟨rfl, x, hx, rfl⟩
        simp only [List.mem_singleton] at hx
        subst hx; rfl
      · intro he
        cases he
        exact ⟨rfl, _, List.mem_singleton.2 rfl, rfl⟩
    have hp : all.Perm [([], ⟨n, false, b.length⟩)] :=
      (List.perm_ext_iff_of_nodup a1 (by simp)).2 (fun x => by rw [hm]; simp)
    exact List.perm_singleton.1 hp
  subst hall
  rw [List.map_singleton] at a4
  have hl := List.perm_singleton.1 a4
  cases listed with
  | nil => simp at hl
  | cons x xs =>
    simp only [List.map_cons, List.cons.injEq, List.map_eq_nil_iff] at hl
    obtain ⟨hk, rfl⟩ := hl
    simp only [direntKey, entryKey, Prod.mk.injEq] at hk
    obtain ⟨k1, k2, k3, k4⟩ := hk
    obtain ⟨x1, d⟩ := x
    simp only at k1 k2 k3 k4
    rw [k3] at k4
    simp only [Bool.false_eq_true, if_false, Option.some.injEq, Prod.mk.injEq, List.nil_append] at k4
    refine ⟨vol, d, h1, ?_, k2, k3, ?_⟩
    · intro wf hwf
      rw [a3 wf (by simpa using hwf)]
      rw [k1]; rfl
    · rw [k4.2, flat_content hok.distinct (List.mem_singleton.2 rfl)]

/-- C46 is false: the tool packs a file named `../x`, and unpacking the image into the existing empty
directory `out` succeeds and writes the file `x` beside `out`. -/
theorem C46_unpack_contained_false (img0 : Bytes) (clones : Bool) : ∃ s' host',
    createImage (fileEnv (flatFs climbing) (fun _ => none)) 1 ⟨⟨img0, []⟩, []⟩ = (.ok (), s') ∧
    FreshDest sampleHost ['o', 'u', 't'] sampleHostFs ∧
    (∀ fuel, 2 < fuel → cmdUnpack sampleHost s'.dev.img clones ['o', 'u', 't'] fuel sampleHostFs = (.ok (), host')) ∧
    sampleHostFs [['w'], ['x']] = none ∧ host' [['w'], ['x']] = some (.file [7]) ∧
    ¬ ChangesOnlyInside sampleHost ['o', 'u', 't'] sampleHostFs host' := by
  obtain ⟨s', h⟩ := flat_packs climbing_ok img0
  obtain ⟨vol, d, h1, h2, h3, h4, h5⟩ := single_listing climbing_ok h
  have hag := offsetDev_zero (fileDev s'.dev.img)
  have hx : (RawImage.mk s'.dev.img 0 clones).extract d.node.dirent = .ok [7] :=
    extract_ok (by rw [← h5]; exact hag.readDataAll _)
  have hlen : d.node.dirent.nameLen ≠ 0 := by
    intro e
    have := fileTree_named (h2 3 (by omega)) _ (List.mem_singleton.2 rfl)
    rw [e] at this
    have hx0 : d.name = [] := List.eq_nil_of_length_eq_zero this
    simp [DirEnt.nameStr, hx0, decodeName] at h3
  refine ⟨s', sampleHostFs.set [['w'], ['x']] (.file [7]), h, ?_, ?_, by decide, set_same _ _ _, ?_⟩
  · exact sample_fresh
  · intro fuel hf
    unfold cmdUnpack
    rw [offsetNew_zero h1]
    simp only
    rw [hag.readVolume, h1]
    simp only [copyoutDirectory]
    have : fileTree (RawImage.dev ⟨s'.dev.img, 0, clones⟩) vol.root fuel = .ok [([], d)] := by
      rw [← h2 fuel hf]; exact hag.fileTree _ _
    rw [this]
    simp only [copyoutLoop, copyoutEntry]
    have e1 : pathJoin ['o', 'u', 't'] (trimSlashes []) = ['o', 'u', 't', '/'] := by decide
    have e2 : pathJoin ['o', 'u', 't', '/'] d.nameStr = ['o', 'u', 't', '/', '.', '.', '/', 'x'] := by
      rw [h3]; decide
    rw [e1, e2]
    have e3 : sampleHost.createDirAll ['o', 'u', 't', '/'] sampleHostFs = (.ok (), sampleHostFs) := by
      rfl
    rw [e3]
    simp only
    rw [if_neg (by rw [h4]; decide), if_neg hlen, hx]
    rfl
  · intro hc
    rcases hc [['w'], ['x']] (by rw [set_same]; decide) with g | ⟨_, _, g⟩
    · revert g; decide
    · rw [set_same] at g; cases g

theorem sampleHost_wf : WellFormedHost sampleHostFs := by
  refine ⟨by decide, ?_⟩
  intro q c h
  simp only [sampleHostFs] at h ⊢
  split at h
  · next hq =>
    rcases hq with hq | hq | hq
    · simp at hq
    · have : q ++ [c] = [] ++ [['w']] := hq
      have := (List.append_inj' this rfl).1
      rw [this]; decide
    · have : q ++ [c] = [['w']] ++ [['o', 'u', 't']] := hq
      have := (List.append_inj' this rfl).1
      rw [this]; decide
  · exact absurd rfl h

/-- A file named `..`. -/
def dotdot : List (Str × Bytes) := [(['.', '.'], [7])]

theorem dotdot_ok : FlatOk dotdot := by
  refine ⟨by simp [DistinctNames, dotdot], ?_, ?_, by decide⟩
  · intro x hx
    simp only [dotdot, List.mem_singleton] at hx
    subst hx
    refine ⟨by decide, fun c hc => ascii_inCp1252 ?_⟩
    revert c; decide
  · intro x hx
    simp only [dotdot, List.mem_singleton] at hx
    subst hx; decide

/-- The hypotheses of C46 hold for an image with a file named `..`: nothing outside changes. -/
example (img0 : Bytes) (clones : Bool) : ∃ s',
    createImage (fileEnv (flatFs dotdot) (fun _ => none)) 1 ⟨⟨img0, []⟩, []⟩ = (.ok (), s') ∧
    ChangesOnlyInside sampleHost ['o', 'u', 't'] sampleHostFs
      (cmdUnpack sampleHost s'.dev.img clones ['o', 'u', 't'] 3 sampleHostFs).2 := by
  obtain ⟨s', h⟩ := flat_packs dotdot_ok img0
  obtain ⟨vol, d, h1, h2, h3, h4, h5⟩ := single_listing dotdot_ok h
  refine ⟨s', h, C46_unpack_contained_partial _ _ _ _ _ _ sampleHost_wf (by decide) ?_⟩
  intro base vol' tree hb hv ht x hx
  rw [offsetNew_zero h1] at hb
  cases hb
  have hag := offsetDev_zero (fileDev s'.dev.img)
  rw [hag.readVolume, h1] at hv
  cases hv
  rw [hag.fileTree, h2 3 (by omega)] at ht
  cases ht
  simp only [List.mem_singleton] at hx
  subst hx
  rw [h3]; decide

/-! ## C65: copying out single files and directories -/

theorem slashPath_ne_root {q : Path} (hp : PlainPath q) : slashPath q ≠ ['/'] := by
  intro h
  cases q with
  | nil => simp [slashPath] at h
  | cons c cs =>
    have h1 : slashPath (c :: cs) = '/' :: (c ++ slashPath cs) := rfl
    rw [h1] at h
    simp only [List.cons.injEq, true_and, List.append_eq_nil_iff] at h
    exact (hp c (by simp)).1 h.1

/-- C65 for files: copying a file out of a packed image, under its path in any letter case, writes
exactly its content to the destination and changes nothing else. -/
theorem C65_copyout_file {fs : SourceFs} {content : Path → Bytes} (hb : Bounded fs)
    (hf : FaithfulTo fs content) {faults : Faults} {fuel : Nat} {img0 : Bytes} {s' : PackState ImgFile}
    (hpack : createImage (fileEnv fs faults) fuel ⟨⟨img0, []⟩, []⟩ = (.ok (), s'))
    {p : Path} {e : FileEntry} (he : EntryIn fs.readDir p e) (hfile : e.isDir = false)
    {q : Path} (hq : SamePath (p ++ [e.name]) q) (hplain : PlainPath q)
    {cfuel : Nat} (hfuel : SearchBudget fs.readDir cfuel)
    (h : Host) (hfaults : ∀ p, h.faults p = .none) (clones : Bool) (dest : Str) (host : HostFs)
    {place : HostPath} (hplace : h.resolve host dest = .ok place) (hnodir : host place ≠ some .dir)
    (hname : ∀ s, (splitSlash dest).getLast? = some s → s ≠ [] ∧ s ≠ ['.'] ∧ s ≠ ['.', '.']) :
    cmdCopyout h s'.dev.img clones (slashPath q) dest cfuel host =
      (.ok (), host.set place (.file (content (p ++ [e.name])))) := by
  obtain ⟨vol, h1, h2, _⟩ := pack_success hb hf hpack
  obtain ⟨d, d1, _, d3, d4⟩ := h2 p e q cfuel he hfile hq hplain hfuel
  have hag := offsetDev_zero (fileDev s'.dev.img)
  have hdev : RawImage.dev ⟨s'.dev.img, 0, clones⟩ = offsetDev (fileDev s'.dev.img) 0 := rfl
  unfold cmdCopyout
  rw [offsetNew_zero h1]
  simp only [hdev]
  rw [hag.readVolume, h1]
  simp only
  rw [if_neg (slashPath_ne_root hplain), hag.walkPath, d1]
  simp only
  have htab : d.node.dirent.direntTable = none := by
    unfold DiskData.direntTable; rw [d3]; rfl
  rw [htab]
  simp only
  rw [extract_ok (b := content (p ++ [e.name])) (by rw [hdev, hag.readDataAll]; exact d4)]
  unfold Host.writeFile
  rw [hplace]
  simp only
  rw [if_neg, hfaults]
  rintro (g | g | g | g)
  · exact hnodir g
  · exact (hname _ g).1 rfl
  · exact (hname _ g).2.1 rfl
  · exact (hname _ g).2.2 rfl

/-- C65 for directories: copying a directory out of a packed image into a fresh place recreates there
exactly the tree below that directory, and changes nothing else except that missing directories on the
way are created. -/
theorem C65_copyout_dir {fs : SourceFs} {content : Path → Bytes} (hb : Bounded fs)
    (hf : FaithfulTo fs content) {faults : Faults} {fuel : Nat} {img0 : Bytes} {s' : PackState ImgFile}
    (hpack : createImage (fileEnv fs faults) fuel ⟨⟨img0, []⟩, []⟩ = (.ok (), s'))
    (hnames : ∀ p e, EntryIn fs.readDir p e → HostName e.name)
    {p : Path} {e : FileEntry} (he : EntryIn fs.readDir p e) (hdir : e.isDir = true)
    {q : Path} (hq : SamePath (p ++ [e.name]) q) (hplain : PlainPath q)
    (h : Host) (hfaults : ∀ p, h.faults p = .none) (clones : Bool) (dest : Str) (host : HostFs)
    (hfresh : FreshDest h dest host) :
    ∃ n host', (∀ cfuel, n < cfuel →
        cmdCopyout h s'.dev.img clones (slashPath q) dest cfuel host = (.ok (), host')) ∧
      TreeAt host' (placeOf h dest) (fun r => fs.readDir (p ++ [e.name] ++ r))
        (fun r => content (p ++ [e.name] ++ r)) ∧
      ChangesOnlyInside h dest host host' := by
  obtain ⟨M, Loc, l0, hP⟩ := pack_packed hb hf hpack
  obtain ⟨Dp, hn, hD⟩ := hP.finite
  have hsub : DirOf fs.readDir (p ++ [e.name]) := by
    obtain ⟨h1, l, h2, h3⟩ := he
    exact .sub h1 h2 h3 hdir
  have hag := offsetDev_zero (fileDev s'.dev.img)
  have hdev : RawImage.dev ⟨s'.dev.img, 0, clones⟩ = offsetDev (fileDev s'.dev.img) 0 := rfl
  -- the directory found does not depend on the fuel
  obtain ⟨B, hB⟩ : ∃ B, SearchBudget fs.readDir B := by
    have : ∀ L : List Path, ∃ B, ∀ v ∈ L, ∀ l, fs.readDir v = .ok l → 2 * Nat.log2 (l.length + 1) < B := by
      intro L
      induction L with
      | nil => exact ⟨0, by simp⟩
      | cons a L ih =>
        obtain ⟨B, hB⟩ := ih
        cases ha : fs.readDir a with
        | ok la =>
          refine ⟨B + (2 * Nat.log2 (la.length + 1) + 1), ?_⟩
          intro v hv l hl
          rcases List.mem_cons.1 hv with rfl | hv
          · rw [ha] at hl; cases hl; omega
          · have := hB v hv l hl; omega
        | err _ =>
          refine ⟨B, fun v hv l hl => ?_⟩
          rcases List.mem_cons.1 hv with rfl | hv
          · rw [ha] at hl; cases hl
          · exact hB v hv l hl
        | panic =>
          refine ⟨B, fun v hv l hl => ?_⟩
          rcases List.mem_cons.1 hv with rfl | hv
          · rw [ha] at hl; cases hl
          · exact hB v hv l hl
        | hang =>
          refine ⟨B, fun v hv l hl => ?_⟩
          rcases List.mem_cons.1 hv with rfl | hv
          · rw [ha] at hl; cases hl
          · exact hB v hv l hl
    obtain ⟨B, hB⟩ := this Dp
    exact ⟨B, fun v l hv hl => hB v ((hD v).2 hv) l hl⟩
  obtain ⟨d, l', g1, g2, g3, g4, g5, g6⟩ :=
    hP.image.entry_lookup hP.distinct hP.root hP.rootDir he hq hplain hB
  have hl := (hP.image.listsBelow hP.distinct hn hD g5 (by rw [g6, hdir])).agree hag
  obtain ⟨n, host', k1, k2, k3⟩ := copyout_restores hfaults (r := ⟨s'.dev.img, 0, clones⟩) hfresh hl
    (allDistinct_below hsub hP.distinct) (fun r f hrf => hnames _ _ ((entryIn_below hsub).1 hrf))
  refine ⟨max n B, host', ?_, k2, k3⟩
  intro cfuel hc
  unfold cmdCopyout
  rw [offsetNew_zero hP.volume]
  simp only [hdev]
  rw [hag.readVolume, hP.volume]
  simp only
  rw [if_neg (slashPath_ne_root hplain), hag.walkPath]
  have hsame : walkPath (fileDev s'.dev.img) (VolDesc.new (regionOf l0)).root (slashPath q) cfuel = .ok d := by
    have := walkPath_mono (dev := fileDev s'.dev.img) (tab := regionOf l0) (path := slashPath q) (fuel := B)
      (by rw [g1]; simp) cfuel (by omega)
    rw [g1] at this
    exact this
  rw [hsame]
  simp only
  have htab : d.node.dirent.direntTable = some (regionOf l') := by
    unfold DiskData.direntTable; rw [g4, hdir, g3]; rfl
  rw [htab]
  exact k1 cfuel (by omega)

/-- The hypotheses of C65 hold for the sample source: the file `A/c` copied to `c.bin`, under a path in
other letter case, and the directory `A` copied to `out`. -/
example (img0 : Bytes) (clones : Bool) : ∃ s' n host',
    createImage (fileEnv sampleFs' (fun _ => none)) 2 ⟨⟨img0, []⟩, []⟩ = (.ok (), s') ∧
    cmdCopyout sampleHost s'.dev.img clones ['/', 'a', '/', 'C'] ['c', '.', 'b', 'i', 'n'] 9 sampleHostFs =
      (.ok (), sampleHostFs.set [['w'], ['c', '.', 'b', 'i', 'n']] (.file [1, 2, 3])) ∧
    (∀ fuel, n < fuel → cmdCopyout sampleHost s'.dev.img clones ['/', 'a'] ['o', 'u', 't'] fuel sampleHostFs =
      (.ok (), host')) ∧
    host' [['w'], ['o', 'u', 't'], ['c']] = some (.file [1, 2, 3]) := by
  obtain ⟨s', h⟩ := sample_packs img0
  have h1 := C65_copyout_file sample'_bounded sample'_faithful h (p := [['A']]) (e := ⟨['c'], false, 3⟩)
    ((sample_entries _ _).2 (.inr (.inr ⟨rfl, rfl⟩))) rfl (q := [['a'], ['C']]) (by unfold SamePath; decide)
    (by intro s hs; simp at hs; rcases hs with rfl | rfl <;> decide) (cfuel := 9) (by
      intro p l hp hl
      rcases (sample_dirs p).1 hp with rfl | rfl
      · cases hl; decide
      · cases hl; decide) sampleHost (fun _ => rfl) clones ['c', '.', 'b', 'i', 'n'] sampleHostFs
    (place := [['w'], ['c', '.', 'b', 'i', 'n']]) (by decide) (by decide) (by
      intro s hs
      have : s = ['c', '.', 'b', 'i', 'n'] := by
        have h' : (splitSlash ['c', '.', 'b', 'i', 'n']).getLast? = some ['c', '.', 'b', 'i', 'n'] := by decide
        rw [h'] at hs; exact (Option.some.inj hs).symm
      subst this; decide)
  obtain ⟨n, host', h2, ⟨_, h4, _⟩, _⟩ := C65_copyout_dir sample'_bounded sample'_faithful h sample_hostNames
    (p := []) (e := ⟨['A'], true, 0⟩) ((sample_entries _ _).2 (.inl ⟨rfl, rfl⟩)) rfl (q := [['a']])
    (by unfold SamePath; decide) (by intro s hs; simp at hs; subst hs; decide) sampleHost (fun _ => rfl) clones
    ['o', 'u', 't'] sampleHostFs sample_fresh
  refine ⟨s', n, host', h, h1, h2, ?_⟩
  have hp : placeOf sampleHost ['o', 'u', 't'] = [['w'], ['o', 'u', 't']] := by decide
  rw [hp] at h4
  refine h4 [] ⟨['c'], false, 3⟩ ?_ rfl
  exact (entryIn_below (p := [] ++ [['A']]) ((sample_dirs _).2 (.inr rfl))).2
    ((sample_entries _ _).2 (.inr (.inr ⟨rfl, rfl⟩)))

/-! ## C66: unpacked files are complete -/

theorem extract_slow {r : RawImage} (hc : r.clones = false) {d : DiskData} {b : Bytes} (h : r.extract d = .ok b) :
    readDataAll r.dev d = .ok b := by
  unfold RawImage.extract at h
  split at h
  · next h0 =>
    have : d.data.size = 0 := by simpa [Region.isEmpty] using h0
    unfold readDataAll
    rw [if_pos this]; exact h
  · obtain ⟨off, _, h⟩ := Res.bind_eq_ok.1 h
    rw [hc] at h
    exact h

theorem writeFile_ok {h : Host} {path : Str} {data : Res Bytes} {fs fs' : HostFs}
    (hw : h.writeFile path data fs = (.ok (), fs')) : ∃ b, data = .ok b := by
  unfold Host.writeFile at hw
  split at hw
  · split at hw
    · cases hw
    · split at hw
      · cases hw
      · split at hw <;> cases hw
      · split at hw
        · exact ⟨_, rfl⟩
        · cases hw
        · cases hw
        · cases hw
  · cases hw
  · cases hw
  · cases hw

theorem copyoutLoop_extracts {h : Host} {r : RawImage} {dest : Str} : ∀ (B : List (Str × DirEnt)) (fs : HostFs) {fs'},
    copyoutLoop h r dest B fs = (.ok (), fs') → ∀ x ∈ B, x.2.node.dirent.isDirectory = false →
    x.2.node.dirent.nameLen ≠ 0 → ∃ b, r.extract x.2.node.dirent = .ok b := by
  intro B
  induction B with
  | nil => intro fs fs' _ x hx; cases hx
  | cons y ys ih =>
    intro fs fs' hrun x hx hd hn
    simp only [copyoutLoop] at hrun
    cases hc : copyoutEntry h r dest y fs with
    | mk r1 fs1 =>
    rw [hc] at hrun
    cases r1 with
    | ok u =>
      rcases List.mem_cons.1 hx with rfl | hx
      · unfold copyoutEntry at hc
        simp only at hc
        split at hc
        · rw [hd] at hc
          simp only [Bool.false_eq_true, if_false] at hc
          rw [if_neg hn] at hc
          exact writeFile_ok hc
        · next hfail => rw [hc] at hfail; exact absurd rfl (hfail _)
      · exact ih fs1 hrun x hx hd hn
    | err e => simp only at hrun; cases hrun
    | panic => simp only at hrun; cases hrun
    | hang => simp only at hrun; cases hrun

/-- C66 when the handle of the image cannot be duplicated: if unpacking any image into a fresh place
succeeds, without faults of the host, and the listed names are host names that lead to different places,
then every listed file has been written with the size and the data the image gives for it.  What is
missing from C66 is the faster path the tool normally takes: see `C66_unpacked_complete_false`. -/
theorem C66_unpacked_complete_partial {h : Host} (hfaults : ∀ p, h.faults p = .none) {img : Bytes} {dest : Str}
    {fuel : Nat} {host host' : HostFs} (hfresh : FreshDest h dest host)
    (hrun : cmdUnpack h img false dest fuel host = (.ok (), host'))
    {base : Nat} {vol : VolDesc} {tree : List (Str × DirEnt)} (hbase : offsetNew (fileDev img) = .ok base)
    (hvol : readVolume (offsetDev (fileDev img) base) = .ok vol)
    (htree : fileTree (offsetDev (fileDev img) base) vol.root fuel = .ok tree)
    (hnames : ∀ x ∈ tree, HostEntry x) (hplaces : (tree.map entryRel).Nodup) :
    ∀ x ∈ tree, x.2.node.dirent.isDirectory = false → ∃ b,
      host' (placeOf h dest ++ entryRel x) = some (.file b) ∧ b.length = x.2.node.dirent.data.size.toNat ∧
      readDataAll (offsetDev (fileDev img) base) x.2.node.dirent = .ok b := by
  unfold cmdUnpack at hrun
  rw [hbase] at hrun
  simp only at hrun
  rw [hvol] at hrun
  simp only [copyoutDirectory] at hrun
  have hdev : RawImage.dev ⟨img, base, false⟩ = offsetDev (fileDev img) base := rfl
  rw [hdev, htree] at hrun
  simp only at hrun
  let r : RawImage := ⟨img, base, false⟩
  have hlen : ∀ x ∈ tree, x.2.node.dirent.nameLen ≠ 0 := by
    intro x hx e0
    have := fileTree_named htree x hx
    rw [e0] at this
    have hx0 : x.2.name = [] := List.eq_nil_of_length_eq_zero this
    exact (hnames x hx).name.1 (by simp [DirEnt.nameStr, hx0, decodeName])
  let nodeOf : Str × DirEnt → HostNode := fun x =>
    if x.2.node.dirent.isDirectory then .dir
    else match r.extract x.2.node.dirent with
      | .ok b => .file b
      | _ => .file []
  have hnode : ∀ x ∈ tree, if x.2.node.dirent.isDirectory then nodeOf x = .dir
      else x.2.node.dirent.nameLen ≠ 0 ∧ ∃ b, r.extract x.2.node.dirent = .ok b ∧ nodeOf x = .file b := by
    intro x hx
    by_cases hd : x.2.node.dirent.isDirectory = true
    · rw [if_pos hd]; exact if_pos hd
    · rw [if_neg hd]
      obtain ⟨b, hb⟩ := copyoutLoop_extracts tree host hrun x hx (by simpa using hd) (hlen x hx)
      refine ⟨hlen x hx, b, hb, ?_⟩
      simp only [nodeOf]
      rw [if_neg hd]
      have : r.extract x.2.node.dirent = .ok b := hb
      rw [this]
  obtain ⟨fs', h1, h2⟩ := copyoutLoop_restores hfaults hfresh.clear (r := r) (nodeOf := nodeOf) tree [] host
    ⟨by simp, by simp, by simp, fun q _ _ => rfl⟩ (by simpa using fileTree_parents htree) (by simpa using hnames)
    (by simpa using hplaces) (fun x _ => hfresh.free x) (by simpa using hnode)
  have he : fs' = host' := by
    have : (Res.ok (), fs') = (Res.ok (), host') := h1.symm.trans hrun
    exact congrArg Prod.snd this
  subst he
  intro x hx hd
  have hp := h2.placed x (by simpa using hx)
  have hn := hnode x hx
  rw [if_neg (by rw [hd]; decide)] at hn
  obtain ⟨_, b, hb, hnb⟩ := hn
  have hread := extract_slow (r := r) rfl hb
  exact ⟨b, by rw [hp, hnb], readDataAll_len hread, hread⟩

def truncListed : DirEnt := ⟨⟨0, 0, ⟨⟨1000, 5⟩, 0x20, 1⟩⟩, [0x61], 67584⟩

set_option maxRecDepth 20000 in
theorem trunc_tree : fileTree (fileDev truncImage) ⟨33, 2048⟩ 3 = .ok [([], truncListed)] := by
  rw [trunc_dev]; decide +kernel

theorem trunc_length : truncImage.length = 69632 := by
  unfold truncImage handImage
  rw [List.length_append, List.length_append, VolDesc.ser_length _ (VolDesc.new_wf _), List.length_append,
    List.length_replicate, List.length_replicate]
  decide

/-- C66 is false when the handle can be duplicated: an image that ends before the data of its only file
(5 bytes long) is unpacked without an error, and the file is created empty. -/
theorem C66_unpacked_complete_false : ∃ host',
    readVolume (fileDev truncImage) = .ok (VolDesc.new ⟨33, 2048⟩) ∧
    fileTree (fileDev truncImage) ⟨33, 2048⟩ 3 = .ok [([], truncListed)] ∧
    truncListed.node.dirent.data.size = 5 ∧
    cmdUnpack sampleHost truncImage true ['o', 'u', 't'] 3 sampleHostFs = (.ok (), host') ∧
    host' [['w'], ['o', 'u', 't'], ['a']] = some (.file []) := by
  refine ⟨sampleHostFs.set [['w'], ['o', 'u', 't'], ['a']] (.file []), trunc_volume, trunc_tree, rfl, ?_, set_same _ _ _⟩
  have hag := offsetDev_zero (fileDev truncImage)
  unfold cmdUnpack
  rw [offsetNew_zero trunc_volume]
  simp only
  rw [hag.readVolume, trunc_volume]
  simp only [copyoutDirectory]
  have hv : (VolDesc.new ⟨33, 2048⟩).root = ⟨33, 2048⟩ := rfl
  have ht : fileTree (RawImage.dev ⟨truncImage, 0, true⟩) (VolDesc.new ⟨33, 2048⟩).root 3 = .ok [([], truncListed)] := by
    rw [← trunc_tree]; exact hag.fileTree _ _
  rw [ht]
  simp only [copyoutLoop, copyoutEntry]
  have e1 : pathJoin ['o', 'u', 't'] (trimSlashes []) = ['o', 'u', 't', '/'] := by decide
  have e2 : pathJoin ['o', 'u', 't', '/'] truncListed.nameStr = ['o', 'u', 't', '/', 'a'] := by decide
  rw [e1, e2]
  have e3 : sampleHost.createDirAll ['o', 'u', 't', '/'] sampleHostFs = (.ok (), sampleHostFs) := rfl
  rw [e3]
  simp only
  have e4 : (RawImage.mk truncImage 0 true).extract truncListed.node.dirent = .ok [] := by
    have ho : truncListed.node.dirent.data.offset 0 = .ok 2048000 := by decide
    unfold RawImage.extract
    rw [if_neg (by decide), ho]
    simp only [Res.ok_bind, if_true]
    unfold slice
    rw [List.drop_eq_nil_of_le (by rw [trunc_length]; decide)]
    rfl
  rw [if_neg (by decide), if_neg (by decide), e4]
  rfl

/-- The hypotheses of the partial theorem hold for the sample image. -/
example (img0 : Bytes) : ∃ s' n host' tree vol,
    createImage (fileEnv sampleFs' (fun _ => none)) 2 ⟨⟨img0, []⟩, []⟩ = (.ok (), s') ∧
    offsetNew (fileDev s'.dev.img) = .ok 0 ∧ readVolume (offsetDev (fileDev s'.dev.img) 0) = .ok vol ∧
    fileTree (offsetDev (fileDev s'.dev.img) 0) vol.root n = .ok tree ∧ tree.length = 3 ∧
    cmdUnpack sampleHost s'.dev.img false ['o', 'u', 't'] n sampleHostFs = (.ok (), host') := by
  obtain ⟨s', h⟩ := sample_packs img0
  obtain ⟨n, host', h1, _⟩ := C45_unpack_restores sample'_bounded sample'_faithful h sample_hostNames
    sampleHost (fun _ => rfl) ['o', 'u', 't'] sampleHostFs sample_fresh false
  obtain ⟨vol, v1, _, _, _, all, a1, a2, listed, a3, a4⟩ := pack_success sample'_bounded sample'_faithful h
  have hag := offsetDev_zero (fileDev s'.dev.img)
  refine ⟨s', n + all.length + 2, host', listed, vol, h, offsetNew_zero v1, by rw [hag.readVolume, v1], ?_, ?_,
    h1 _ (by omega)⟩
  · rw [hag.fileTree]; exact a3 _ (by omega)
  · have h3 : all.Perm [([], ⟨['A'], true, 0⟩), ([], ⟨['b', '.', 't', 'x', 't'], false, 5⟩), ([['A']], ⟨['c'], false, 3⟩)] := by
      refine (List.perm_ext_iff_of_nodup a1 (by decide)).2 ?_
      rintro ⟨p, e⟩
      rw [a2]
      refine (sample_entries p e).trans ?_
      simp
    have := a4.length_eq
    rw [List.length_map, List.length_map, h3.length_eq] at this
    exact this

end Xdvdfs.Props
