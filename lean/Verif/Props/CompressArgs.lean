import Verif.Proof.Compress
import Verif.Props.CliPaths
import Verif.Props.Repack

/-! # C91–C96: `compress`, and opening what it wrote -/

namespace Xdvdfs.Props

open Spec

variable {h : Host} {t : Tool} {r : DirReader} {most : Path → (off n : Nat) → Nat} {c : Ciso} {fs fs' : HostFs}
  {source image name stem : Str} {src d : HostPath}

theorem OutputAt.beside (hn : NumberedParts c) (ho : OutputAt h fs image name stem d) :
    ∃ dir, Beside h c image dir stem d ∧ PrefixNames h fs dir d := by
  obtain ⟨dir, rfl, h1, h2, h3⟩ := ho
  exact ⟨dir, ⟨stem_ok h1 h2, fun i => hn dir name stem i h3.1 h1 h2⟩, h3⟩

/-! ## A concrete encoder -/

/-- An encoder that stores the sectors as they are, in one part. -/
def plainCiso : Ciso where
  partName := fun path i => pathWithExtension path (partExt (i + 1))
  partial_ := fun _ _ => [[]]
  final := fun _ secs => [secs.flatten]
  openParts := fun
    | [b] => .ok (fileDev b)
    | _ => .err .io

theorem plain_numbered : NumberedParts plainCiso := by
  intro dir name stem i hd hn hs
  show pathWithExtension (dir ++ name) (partExt (i + 1)) = _
  rw [pathWithExtension_append _ hd hn]
  congr 1
  unfold stdWithExtension
  rw [if_neg (by simp [partExt]), HasStem.unique (splitExt_stem name hn.2.2.2.2) hs]
  rfl

theorem plain_works : CisoWorks plainCiso := by
  intro secs _
  refine ⟨rfl, by simp [plainCiso], fun k => ?_⟩
  exact Nat.le_refl 1

/-- An encoder that puts each sector into a part of its own. -/
def splitCiso : Ciso where
  partName := fun path i => pathWithExtension path (partExt (i + 1))
  partial_ := fun _ secs => secs
  final := fun _ secs => secs ++ [[]]
  openParts := fun bs => .ok (fileDev bs.flatten)

theorem split_numbered : NumberedParts splitCiso := plain_numbered

theorem split_works : CisoWorks splitCiso := by
  intro secs _
  refine ⟨by simp [splitCiso], by simp [splitCiso], fun k => ?_⟩
  simp only [splitCiso, List.length_take, List.length_append]
  omega

/-! ## C92: directories -/

/-- C92: if compressing a directory succeeds, then packing it succeeds, and the parts hold the image that packing
makes, encoded; nothing but the parts has changed. -/
theorem C92_compressed_image (hs : ∀ b, (r.split b).flatten = b) (hm : WholeReads most) (hc : CisoWorks c)
    (hn : NumberedParts c) (hst : h.stat fs source = some (src, .dir)) (ho : OutputAt h fs image name stem d)
    (hno : NoPartInSource fs src d stem)
    (hw : cmdCompressArgs h t r most c fs source (some image) = (.ok (), fs')) :
    ∃ img, HostPacksTo t r fs src img ∧ StoredParts fs' d stem (partsOf c img) ∧
      ∀ q, (∀ i, i < (partsOf c img).length → q ≠ d ++ [partFile stem (i + 1)]) → fs' q = fs q := by
  obtain ⟨dir, hb, hd⟩ := OutputAt.beside hn ho
  rw [cmdCompressArgs_eq (image := some image) hst rfl] at hw
  split at hw
  · cases hw
  · obtain ⟨img, h1, _, h2, h3⟩ := compressDir_ok hs hm hc hb hd hno hw
    exact ⟨img, h1, h2, h3⟩

/-- C92, read back: opening the first part gives a device that reads like the image, and that image holds exactly what
was in the directory.  The part after the last must not exist before; `C95_stale_part_false` shows why. -/
theorem C92_reads_back (hs : ∀ b, (r.split b).flatten = b) (hm : WholeReads most) (hc : CisoWorks c)
    (hn : NumberedParts c) (hst : h.stat fs source = some (src, .dir)) {dir : Str} (hname : HostName name)
    (hstem : HasStem name stem) (hd : PrefixNames h fs dir d) (hno : NoPartInSource fs src d stem)
    (hfresh : ∀ i, fs (d ++ [partFile stem i]) = none)
    (hw : cmdCompressArgs h t r most c fs source (some (dir ++ name)) = (.ok (), fs')) :
    ∃ img n, HostPacksTo t r fs src img ∧
      (∀ fuel, n < fuel → openPath h c fuel fs' (dir ++ partFile stem 1) = .ok (fileDev img)) ∧
      HoldsTree (fileDev img) (stdFs r fs src).readDir (stdContent fs src) := by
  have hb : Beside h c (dir ++ name) dir stem d :=
    ⟨stem_ok hname hstem, fun i => hn dir name stem i hd.1 hname hstem⟩
  have hch : PartsChange (fun i => placeOf h (c.partName (dir ++ name) i)) fs fs' := by
    rcases cmdCompressArgs_changes hw with rfl | ⟨_, _, s, _, k2, _, k4⟩
    · exact .refl _ _
    · cases k2; exact k4
  rw [cmdCompressArgs_eq (image := some (dir ++ name)) hst rfl] at hw
  split at hw
  · cases hw
  · obtain ⟨img, h1, h4, h2, h3⟩ := compressDir_ok hs hm hc hb hd hno hw
    obtain ⟨s', hp, rfl⟩ := h1
    obtain ⟨w1, w2, _⟩ := hc (sectorsOf s'.dev.img) (fun s hs => sectorsOf_mem hs)
    refine ⟨_, (partsOf c s'.dev.img).length, ⟨s', hp, rfl⟩, ?_, pack_success (std_bounded hs) (std_faithful hs) hp⟩
    intro fuel hf
    rw [openPath_parts (c := c) hb.ok (prefixNames_sameDirs hd hch.sameDirs) (bs := partsOf c s'.dev.img) w2 h2 ?_ hf]
    · unfold partsOf
      rw [w1, sectorsOf_whole h4]
    · rw [h3]
      · exact hfresh _
      · intro i hi he
        have := partPlace_inj he
        omega

/-- C92, success: a directory that packs is compressed, if nothing stands in the way of the output. -/
theorem C92_compress_succeeds (hs : ∀ b, (r.split b).flatten = b) (hm : WholeReads most)
    (hn : NumberedParts c) (hst : h.stat fs source = some (src, .dir)) (ho : OutputAt h fs image name stem d)
    (hno : NoPartInSource fs src d stem) (hpw : PartsWritable h fs d stem)
    (hre : compressRefused h fs source image = false) {img : Bytes} (hp : HostPacksTo t r fs src img) :
    ∃ fs', cmdCompressArgs h t r most c fs source (some image) = (.ok (), fs') := by
  obtain ⟨dir, hb, hd⟩ := OutputAt.beside hn ho
  rw [cmdCompressArgs_eq (image := some image) hst rfl, if_neg (by simp [hre])]
  exact compressDir_succeeds hs hm hb hd hno hpw hp

/-! ## C93: sources that cannot be packed -/

/-- C93, directories: if the directory cannot be packed, compressing it fails, and the host is as before. -/
theorem C93_unpackable_dir (hst : h.stat fs source = some (src, .dir)) (hp : ∀ img, ¬ HostPacksTo t r fs src img)
    (image : Option Str) :
    (cmdCompressArgs h t r most c fs source image).1 ≠ .ok () ∧
    (cmdCompressArgs h t r most c fs source image).2 = fs := by
  have key : ∀ s, (compressDir h t r most c fs src s).1 ≠ .ok () ∧ (compressDir h t r most c fs src s).2 = fs := by
    intro s
    unfold compressDir
    split
    · next s1 hl =>
      obtain ⟨s', hp'⟩ := std_linear_packs hl
      exact absurd ⟨s', hp', rfl⟩ (hp _)
    all_goals exact ⟨by simp, rfl⟩
  cases hd : compressDest source .dir image with
  | ok s =>
    rw [cmdCompressArgs_eq hst hd]
    split
    · exact ⟨by simp, rfl⟩
    · exact key s
  | _ =>
    unfold cmdCompressArgs
    simp only [hst]
    cases image with
    | some s' => cases hd
    | none =>
      simp only [compressDest] at hd
      simp only [hd]
      exact ⟨by simp, by trivial⟩

/-- C93, files: a file that is not an image, at none of the offsets at which an image can start, is refused, and the
host is as before. -/
theorem C93_not_an_image {b : Bytes} (hst : h.stat fs source = some (src, .file b))
    (hb : ∀ base ∈ xdvdOffsets, ∀ vol, readVolume (offsetDev (fileDev b) base) ≠ .ok vol) (image : Option Str) :
    (cmdCompressArgs h t r most c fs source image).1 ≠ .ok () ∧
    (cmdCompressArgs h t r most c fs source image).2 = fs := by
  have hno : ∀ base, offsetNew (fileDev b) ≠ .ok base := by
    intro base ho
    have : ∀ l, offsetNewLoop (fileDev b) l = .ok base → ∃ vol, readVolume (offsetDev (fileDev b) base) = .ok vol := by
      intro l
      induction l with
      | nil => intro hl; cases hl
      | cons o os ih =>
        intro hl
        unfold offsetNewLoop at hl
        split at hl
        · next v hv => cases hl; exact ⟨v, hv⟩
        · exact ih hl
        · cases hl
        · cases hl
    obtain ⟨vol, hv⟩ := this _ ho
    exact hb base (offset_listed ho) vol hv
  have key : ∀ s, (compressImage h t c fs src b s).1 ≠ .ok () ∧ (compressImage h t c fs src b s).2 = fs := by
    intro s
    unfold compressImage
    split
    · next base hx => exact absurd hx (hno base)
    all_goals exact ⟨by simp, rfl⟩
  cases hd : compressDest source (.file b) image with
  | ok s =>
    rw [cmdCompressArgs_eq hst hd]
    split
    · exact ⟨by simp, rfl⟩
    · exact key s
  | _ =>
    unfold cmdCompressArgs
    simp only [hst]
    cases image with
    | some s' => cases hd
    | none =>
      simp only [compressDest] at hd
      simp only [hd]
      exact ⟨by simp, by trivial⟩

/-! ## C94: the default output -/

/-- C94 for sources with a name (partial).  Missing: `.`, `..` and `/`, for which `C94_no_name_false` shows that the
command panics.  Without an output path, a directory `name` is compressed to `name.cso` in the working directory, and an
image `name` to its stem with the extension `cso`. -/
theorem C94_default_output_partial {n : HostNode} (hst : h.stat fs source = some (src, n))
    (hl : LastComponent source name) (hdd : name ≠ ['.', '.']) :
    (n = .dir → cmdCompressArgs h t r most c fs source none =
      cmdCompressArgs h t r most c fs source (some (name ++ ['.', 'c', 's', 'o']))) ∧
    (∀ b stem, n = .file b → HasStem name stem → cmdCompressArgs h t r most c fs source none =
      cmdCompressArgs h t r most c fs source (some (stem ++ ['.', 'c', 's', 'o']))) := by
  have hfn := fileName_last hl hdd
  constructor
  · rintro rfl
    have hd : compressDest source .dir none = .ok (name ++ ['.', 'c', 's', 'o']) := by
      simp only [compressDest, defaultCompressArg, hfn, decide_true, withExtension, if_true, Res.ok.injEq]
      rcases hsp : splitExt name with ⟨s, e⟩
      have hstd : ∀ x, x ≠ [] → stdWithExtension name x = s ++ '.' :: x := by
        intro x hx
        unfold stdWithExtension
        rw [if_neg hx, hsp]
      have hspec := splitExt_spec name
      rw [hsp] at hspec
      cases e with
      | none =>
        have he := hspec.1 rfl
        simp only at he ⊢
        rw [hstd _ (by simp), he]
      | some e =>
        have he := hspec.2 e rfl
        simp only at he ⊢
        rw [hstd _ (by simp)]
        rw [he]
        simp
    rw [cmdCompressArgs_eq hst hd, cmdCompressArgs_eq (image := some _) hst rfl]
  · rintro b stem rfl hs
    have hd : compressDest source (.file b) none = .ok (stem ++ ['.', 'c', 's', 'o']) := by
      simp only [compressDest, defaultCompressArg, hfn, withExtension, Res.ok.injEq]
      rw [show decide ((HostNode.file b) = .dir) = false from decide_eq_false (by simp)]
      simp only [Bool.false_eq_true, if_false]
      unfold stdWithExtension
      rw [if_neg (by simp), HasStem.unique (splitExt_stem name hdd) hs]
    rw [cmdCompressArgs_eq hst hd, cmdCompressArgs_eq (image := some _) hst rfl]

/-! ## C91: the source -/

theorem pathComps_plain {p : Str} (hp : NoDots p) : (pathComps p).2 = hostComps p := by
  have hall : ∀ l : List Str, (∀ c ∈ l, c ∈ hostComps p) → l.filter (fun c => decide (c ≠ ['.'])) = l := by
    intro l hl
    refine List.filter_eq_self.2 (fun c hc => ?_)
    simp only [ne_eq, decide_not, Bool.not_eq_true', decide_eq_false_iff_not]
    rintro rfl
    exact hp.1 (hl _ hc)
  unfold pathComps
  split
  · exact hall _ (fun _ hc => hc)
  · split
    · next h0 => rw [h0]
    · next c cs h0 =>
      rw [h0]
      simp only
      rw [hall cs (fun x hx => by rw [h0]; exact List.mem_cons_of_mem _ hx)]

theorem pathComps_abs (p : Str) : (pathComps p).1 = decide (p.head? = some '/') := by
  unfold pathComps
  split
  · next h0 => simp [h0]
  · next h0 => split <;> simp [h0]

theorem placeOf_plain {p : Str} (hp : NoDots p) : placeOf h p = h.start p ++ hostComps p := by
  unfold placeOf
  refine steps_plain (fun c hc => ⟨?_, ?_⟩)
  · rintro rfl; exact hp.1 hc
  · rintro rfl; exact hp.2 hc

/-- C91 for paths that are typed alike (partial).  Missing: a source or an output with `.` or `..`, and one that is
absolute while the other is not; `C91_source_kept_false` shows that these do not hold.  Whatever the outcome, `compress`
changes nothing at the source or below it, if both paths are free of dots and both relative or both absolute; an image
as source must not have the name of a part. -/
theorem C91_source_kept_partial (hn : NumberedParts c) {n : HostNode} (hst : h.stat fs source = some (src, n)) {dir : Str}
    (hd : DirPrefix dir) (hname : HostName name) (hstem : HasStem name stem) (hs : NoDots source) (hdots : NoDots dir)
    (hkind : source.head? = some '/' ↔ (dir ++ name).head? = some '/')
    (hpart : ∀ b i, n = .file b → src ≠ placeOf h (dir ++ partFile stem (i + 1))) {res}
    (hw : cmdCompressArgs h t r most c fs source (some (dir ++ name)) = (res, fs')) :
    ∀ q, src <+: q → fs' q = fs q := by
  rcases cmdCompressArgs_changes hw with rfl | ⟨_, _, s, k1, k2, k3, k4⟩
  · exact fun _ _ => rfl
  rw [hst] at k1; cases k1; cases k2
  intro q hq
  rcases k4 q with j | ⟨j1, _, i, j2⟩
  · exact j
  exfalso
  obtain ⟨_, hplace, hnode⟩ := stat_some hst
  have hpf := partFile_name (stem_ok hname hstem) (i + 1)
  simp only [hn dir name stem i hd hname hstem] at j2
  have hnd : ∀ m, HostName m → NoDots (dir ++ m) := by
    intro m hm
    unfold NoDots
    rw [hostComps_last hd hm.2.1 hm.1]
    simp only [List.mem_append, List.mem_singleton, not_or]
    exact ⟨⟨hdots.1, fun e => hm.2.2.2.1 e.symm⟩, ⟨hdots.2, fun e => hm.2.2.2.2 e.symm⟩⟩
  have hstart : h.start source = h.start (dir ++ partFile stem (i + 1)) := by
    rw [start_append hd hpf.2.1, ← start_append hd hname.2.1]
    unfold Host.start
    by_cases h0 : source.head? = some '/'
    · rw [if_pos h0, if_pos (hkind.1 h0)]
    · rw [if_neg h0, if_neg (fun hx => h0 (hkind.2 hx))]
  have hq' := hq
  rw [j2, hplace, placeOf_plain hs, placeOf_plain (hnd _ hpf), hstart, hostComps_last hd hpf.2.1 hpf.1] at hq
  rw [List.prefix_append_right_inj, List.prefix_concat_iff] at hq
  rcases hq with hq | hq
  · have he : src = placeOf h (dir ++ partFile stem (i + 1)) := by
      rw [hplace, placeOf_plain hs, placeOf_plain (hnd _ hpf), hstart, hostComps_last hd hpf.2.1 hpf.1, hq]
    cases n with
    | dir => rw [j2, ← he] at j1; exact j1 hnode
    | file b => exact hpart b i rfl he
  · have : pathStartsWith (dir ++ name) source = true := by
      unfold pathStartsWith
      rw [pathComps_abs, pathComps_abs, pathComps_plain hs, pathComps_plain (hnd _ hname),
        hostComps_last hd hname.2.1 hname.1]
      simp only [Bool.and_eq_true, beq_iff_eq, decide_eq_decide]
      exact ⟨hkind.symm, List.isPrefixOf_iff_prefix.2 (List.prefix_concat_iff.2 (.inr hq))⟩
    unfold compressRefused at k3
    simp [this] at k3

/-! ## A run -/

/-- A directory with files only packs into an empty file. -/
theorem flat_hostPacks {r : DirReader} {fs : HostFs} {src : HostPath} {files : List (Str × Bytes)} (hok : FlatOk files)
    (hroot : (stdFs r fs src).readDir [] = (flatFs files).readDir []) {t : Tool} (hf : 1 ≤ t.fuel) :
    ∃ img, HostPacksTo t r fs src img := by
  obtain ⟨b, h1, h2⟩ := flat_dir_packs hok hroot hf (cliPolicy t.early)
  obtain ⟨⟨s', k1, _⟩, _⟩ := C63_complete_partial h1 h2
  exact ⟨_, s', k1, rfl⟩

theorem empty_ok : FlatOk [] := ascii_flatOk (by unfold DistinctNames; decide) (by decide) (by decide) (by decide)

theorem emptySource_file {q : HostPath} {x : Bytes} : emptySource q ≠ some (.file x) := by
  unfold emptySource; split <;> simp

theorem emptySource_deep {q : HostPath} (hq : 2 ≤ q.length) : emptySource q = none := by
  unfold emptySource
  refine if_neg ?_
  rintro (rfl | rfl | rfl) <;> simp at hq

/-- The working directory for the runs below. -/
def inS : Host := ⟨[['s']], fun _ => .none⟩

def wholeReads : Path → (off n : Nat) → Nat := fun _ _ n => n

theorem wholeReads_ok : WholeReads wholeReads := fun _ _ n => Nat.le_refl n

/-- C91 is false: in the directory `/s`, compressing `../s` writes the parts into `/s` itself. -/
theorem C91_source_kept_false : ∃ fs', cmdCompressArgs inS sampleTool (listReader emptyDom emptySource) wholeReads
      plainCiso emptySource ['.', '.', '/', 's'] none = (.ok (), fs') ∧
    inS.stat emptySource ['.', '.', '/', 's'] = some ([['s']], .dir) ∧
    emptySource [['s'], ['s', '.', '1', '.', 'c', 's', 'o']] = none ∧
    ∃ x, fs' [['s'], ['s', '.', '1', '.', 'c', 's', 'o']] = some (.file x) := by
  have hst : inS.stat emptySource ['.', '.', '/', 's'] = some ([['s']], .dir) := rfl
  have hname : HostName ['s', '.', 'c', 's', 'o'] := by unfold HostName; decide
  have hstem : HasStem ['s', '.', 'c', 's', 'o'] ['s'] := .inl ⟨['c', 's', 'o'], rfl, by decide, by decide⟩
  have ho : OutputAt inS emptySource ['s', '.', 'c', 's', 'o'] ['s', '.', 'c', 's', 'o'] ['s'] [['s']] :=
    ⟨[], rfl, hname, hstem, .inl rfl, by decide, .inl ⟨rfl, rfl⟩⟩
  have hno : NoPartInSource emptySource [['s']] [['s']] ['s'] := fun i x hx => absurd hx emptySource_file
  have hpw : PartsWritable inS emptySource [['s']] ['s'] :=
    fun i => ⟨rfl, by rw [emptySource_deep (by simp)]; simp⟩
  obtain ⟨img, hp⟩ := flat_hostPacks (t := sampleTool) (r := listReader emptyDom emptySource) (fs := emptySource)
    (src := [['s']]) empty_ok rfl (by decide)
  have hsp : ∀ b, ((listReader emptyDom emptySource).split b).flatten = b := by intro b; simp [listReader]
  obtain ⟨fs', hw⟩ := C92_compress_succeeds (most := wholeReads) (c := plainCiso) hsp wholeReads_ok plain_numbered hst
    ho hno hpw (by decide) hp
  obtain ⟨img', _, h2, _⟩ := C92_compressed_image hsp wholeReads_ok plain_works plain_numbered hst ho hno hw
  refine ⟨fs', ?_, hst, by decide, _, h2 0 _ rfl⟩
  rw [(C94_default_output_partial (name := ['s']) hst ⟨[['.', '.']], rfl⟩ (by decide)).1 rfl]
  exact hw

/-- The hypotheses of C92, and of C91 for plain paths, hold for a directory with a file; the encoder puts each sector
into a part of its own. -/
example : ∃ fs', cmdCompressArgs ⟨[], fun _ => .none⟩ sampleTool (listReader gamesDom twoGames) wholeReads splitCiso
      twoGames ['/', 'g', '.', '1'] (some (['/'] ++ ['x', '.', 'c', 's', 'o'])) = (.ok (), fs') ∧
    (∃ img n, HostPacksTo sampleTool (listReader gamesDom twoGames) twoGames [['g', '.', '1']] img ∧
      (∀ fuel, n < fuel → openPath ⟨[], fun _ => .none⟩ splitCiso fuel fs' (['/'] ++ partFile ['x'] 1) =
        .ok (fileDev img))) ∧
    ∀ q, [['g', '.', '1']] <+: q → fs' q = twoGames q := by
  have hst : Host.stat ⟨[], fun _ => .none⟩ twoGames ['/', 'g', '.', '1'] = some ([['g', '.', '1']], .dir) := rfl
  have hname : HostName ['x', '.', 'c', 's', 'o'] := by unfold HostName; decide
  have hstem : HasStem ['x', '.', 'c', 's', 'o'] ['x'] := .inl ⟨['c', 's', 'o'], rfl, by decide, by decide⟩
  have hd : PrefixNames ⟨[], fun _ => .none⟩ twoGames ['/'] [] := ⟨.inr rfl, by decide, .inr ⟨by decide, rfl⟩⟩
  have hfresh : ∀ i, twoGames ([] ++ [partFile ['x'] i]) = none := by
    intro i
    apply Classical.byContradiction
    intro hne
    rcases twoGames_dom hne with h | h | h | h | h <;> simp [partFile] at h
  have hno : NoPartInSource twoGames [['g', '.', '1']] [] ['x'] := by
    intro i x hx
    rw [hfresh] at hx
    cases hx
  have hpw : PartsWritable ⟨[], fun _ => .none⟩ twoGames [] ['x'] := fun i => ⟨rfl, by rw [hfresh]; simp⟩
  obtain ⟨img, hp⟩ := flat_hostPacks (t := sampleTool) (r := listReader gamesDom twoGames) (fs := twoGames)
    (src := [['g', '.', '1']]) a1_ok rfl (by decide)
  have hsp : ∀ b, ((listReader gamesDom twoGames).split b).flatten = b := by intro b; simp [listReader]
  obtain ⟨fs', hw⟩ := C92_compress_succeeds (most := wholeReads) (c := splitCiso) hsp wholeReads_ok split_numbered hst
    ⟨['/'], rfl, hname, hstem, hd⟩ hno hpw (by decide) hp
  refine ⟨fs', hw, ?_, ?_⟩
  · obtain ⟨img, n, h1, h2, _⟩ := C92_reads_back hsp wholeReads_ok split_works split_numbered hst hname hstem hd hno
      hfresh hw
    exact ⟨img, n, h1, h2⟩
  · exact C91_source_kept_partial split_numbered hst (.inr rfl) hname hstem (by unfold NoDots; decide)
      (by unfold NoDots; decide) (by decide) nofun hw

/-! ## C93: examples -/

/-- A directory that cannot be packed: it has two files whose names differ only in case. -/
def clashHost : HostFs := fun q =>
  if q = [] ∨ q = [['g']] then some .dir
  else if q = [['g'], ['a']] ∨ q = [['g'], ['A']] then some (.file [1])
  else none

def clashDom : List HostPath := [[], [['g']], [['g'], ['a']], [['g'], ['A']]]

example : Host.stat ⟨[], fun _ => .none⟩ clashHost ['g'] = some ([['g']], .dir) ∧
    ∀ img, ¬ HostPacksTo sampleTool (listReader clashDom clashHost) clashHost [['g']] img := by
  refine ⟨rfl, ?_⟩
  rintro img ⟨s', h1, _⟩
  have hsp : ∀ b, ((listReader clashDom clashHost).split b).flatten = b := by intro b; simp [listReader]
  obtain ⟨M, Loc, l0, hP⟩ := pack_packed (std_bounded hsp) (std_faithful hsp) h1
  have := hP.distinct [] [⟨['a'], false, 1⟩, ⟨['A'], false, 1⟩] .root rfl
  revert this
  unfold DistinctNames
  decide

/-- An empty file is not an image. -/
example : Host.stat ⟨[], fun _ => .none⟩ (fun q => if q = [] then some .dir else some (.file [])) ['i'] =
      some ([['i']], .file []) ∧
    ∀ base ∈ xdvdOffsets, ∀ vol, readVolume (offsetDev (fileDev []) base) ≠ .ok vol := by
  refine ⟨rfl, ?_⟩
  intro base hb vol hv
  simp only [xdvdOffsets, List.mem_cons, List.not_mem_nil, or_false] at hb
  rcases hb with rfl | rfl | rfl | rfl <;> cases hv

/-! ## C94: sources without a name -/

/-- C94 is false: without an output path, compressing `.`, `..` or `/` panics. -/
theorem C94_no_name_false : ∀ s ∈ [['.'], ['.', '.'], ['/']],
    (cmdCompressArgs inS t r most c emptySource s none).1 = .panic := by
  intro s hs
  simp only [List.mem_cons, List.not_mem_nil, or_false] at hs
  rcases hs with rfl | rfl | rfl <;> rfl

/-- The hypotheses of C94 hold for a path with a dot and slashes at its end. -/
example : inS.stat emptySource ['/', 's', '/', '.', '/'] = some ([['s']], .dir) ∧
    LastComponent ['/', 's', '/', '.', '/'] ['s'] := ⟨rfl, [], rfl⟩

/-! ## C95: parts that are left over -/

/-- C95, what is opened: after a directory was compressed, opening the first part hands the decoder the parts of the
image, followed by all files that have the names of the next parts, up to the first that does not exist. -/
theorem C95_parts_opened (hs : ∀ b, (r.split b).flatten = b) (hm : WholeReads most) (hc : CisoWorks c)
    (hn : NumberedParts c) (hst : h.stat fs source = some (src, .dir)) {dir : Str} (hname : HostName name)
    (hstem : HasStem name stem) (hd : PrefixNames h fs dir d) (hno : NoPartInSource fs src d stem) {img : Bytes}
    (hp : HostPacksTo t r fs src img) {extra : List Bytes}
    (hex : ∀ j b, extra[j]? = some b → fs (d ++ [partFile stem ((partsOf c img).length + j + 1)]) = some (.file b))
    (hend : fs (d ++ [partFile stem ((partsOf c img).length + extra.length + 1)]) = none)
    (hw : cmdCompressArgs h t r most c fs source (some (dir ++ name)) = (.ok (), fs')) {fuel : Nat}
    (hf : (partsOf c img).length + extra.length < fuel) :
    openPath h c fuel fs' (dir ++ partFile stem 1) = c.openParts (partsOf c img ++ extra) := by
  have hb : Beside h c (dir ++ name) dir stem d :=
    ⟨stem_ok hname hstem, fun i => hn dir name stem i hd.1 hname hstem⟩
  have hch : PartsChange (fun i => placeOf h (c.partName (dir ++ name) i)) fs fs' := by
    rcases cmdCompressArgs_changes hw with rfl | ⟨_, _, s, _, k2, _, k4⟩
    · exact .refl _ _
    · cases k2; exact k4
  rw [cmdCompressArgs_eq (image := some (dir ++ name)) hst rfl] at hw
  split at hw
  · cases hw
  obtain ⟨img', h1, _, h2, h3⟩ := compressDir_ok hs hm hc hb hd hno hw
  obtain rfl : img' = img := by
    obtain ⟨s1, e1, rfl⟩ := h1
    obtain ⟨s2, e2, rfl⟩ := hp
    rw [e1] at e2
    cases e2
    rfl
  obtain ⟨_, w2, _⟩ := hc (sectorsOf img') (fun s hs => sectorsOf_mem hs)
  have hrest : ∀ k, (partsOf c img').length ≤ k → fs' (partPlace d stem k) = fs (partPlace d stem k) := by
    intro k hk
    refine h3 _ (fun i hi he => ?_)
    have := partPlace_inj he
    omega
  refine openPath_parts (c := c) hb.ok (prefixNames_sameDirs hd hch.sameDirs) (by
    intro h0
    exact w2 (List.append_eq_nil_iff.1 h0).1) ?_ ?_ (by simpa using hf)
  · intro j b hj
    rw [List.getElem?_append] at hj
    split at hj
    · exact h2 j b hj
    · next hlt =>
      rw [hrest j (by omega)]
      have := hex _ b hj
      rw [show (partsOf c img').length + (j - (partsOf c img').length) + 1 = j + 1 by omega] at this
      exact this
  · rw [List.length_append, hrest _ (by omega)]
    exact hend

/-- C95 where no part is left over (partial).  Missing: directories with a part from an earlier run, for which
`C95_stale_part_false` shows the claim to be false.  If no file has the name of the next part, opening the first part gives
a device that reads like the image, and the image holds what was in the directory. -/
theorem C95_opened_partial (hs : ∀ b, (r.split b).flatten = b) (hm : WholeReads most) (hc : CisoWorks c)
    (hn : NumberedParts c) (hst : h.stat fs source = some (src, .dir)) {dir : Str} (hname : HostName name)
    (hstem : HasStem name stem) (hd : PrefixNames h fs dir d) (hno : NoPartInSource fs src d stem) {img : Bytes}
    (hp : HostPacksTo t r fs src img) (hend : fs (d ++ [partFile stem ((partsOf c img).length + 1)]) = none)
    (hw : cmdCompressArgs h t r most c fs source (some (dir ++ name)) = (.ok (), fs')) {fuel : Nat}
    (hf : (partsOf c img).length < fuel) :
    openPath h c fuel fs' (dir ++ partFile stem 1) = .ok (fileDev img) ∧
    HoldsTree (fileDev img) (stdFs r fs src).readDir (stdContent fs src) := by
  have key := C95_parts_opened hs hm hc hn hst hname hstem hd hno hp (extra := []) (by simp) hend hw hf
  obtain ⟨s', hp, rfl⟩ := hp
  refine ⟨?_, pack_success (std_bounded hs) (std_faithful hs) hp⟩
  rw [key, List.append_nil]
  obtain ⟨w1, _⟩ := hc (sectorsOf s'.dev.img) (fun s hs => sectorsOf_mem hs)
  unfold partsOf
  have := (C35_length_multiple hp).2
  rw [w1, sectorsOf_whole (by omega)]

/-- A host with an empty directory `/s`, and a file `/w/o.2.cso` that is left over from an earlier run. -/
def staleHost : HostFs := emptySource.set [['w'], ['o', '.', '2', '.', 'c', 's', 'o']] (.file [7])

def staleDom : List HostPath := [[], [['s']], [['w']], [['w'], ['o', '.', '2', '.', 'c', 's', 'o']]]

/-- C95 is false: `/s` is compressed to `/w/o.cso` with success, into one part; opened, that part and the file that was
left over are taken for parts of one image, and the decoder fails. -/
theorem C95_stale_part_false : ∃ fs', cmdCompressArgs ⟨[['w']], fun _ => .none⟩ sampleTool (listReader staleDom staleHost)
      wholeReads plainCiso staleHost ['/', 's'] (some ['o', '.', 'c', 's', 'o']) = (.ok (), fs') ∧
    ∀ fuel, 2 < fuel → openPath ⟨[['w']], fun _ => .none⟩ plainCiso fuel fs' (partFile ['o'] 1) = .err .io := by
  have hst : Host.stat ⟨[['w']], fun _ => .none⟩ staleHost ['/', 's'] = some ([['s']], .dir) := rfl
  have hname : HostName ['o', '.', 'c', 's', 'o'] := by unfold HostName; decide
  have hstem : HasStem ['o', '.', 'c', 's', 'o'] ['o'] := .inl ⟨['c', 's', 'o'], rfl, by decide, by decide⟩
  have hd : PrefixNames ⟨[['w']], fun _ => .none⟩ staleHost [] [['w']] := ⟨.inl rfl, by decide, .inl ⟨rfl, rfl⟩⟩
  have hno : NoPartInSource staleHost [['s']] [['w']] ['o'] := by
    rintro i x _ ⟨q, hq⟩
    simp at hq
  have hpw : PartsWritable ⟨[['w']], fun _ => .none⟩ staleHost [['w']] ['o'] := by
    intro i
    refine ⟨rfl, ?_⟩
    unfold staleHost HostFs.set
    split
    · simp
    · rw [emptySource_deep (by simp)]; simp
  obtain ⟨img, hp⟩ := flat_hostPacks (t := sampleTool) (r := listReader staleDom staleHost) (fs := staleHost)
    (src := [['s']]) empty_ok rfl (by decide)
  have hsp : ∀ b, ((listReader staleDom staleHost).split b).flatten = b := by intro b; simp [listReader]
  obtain ⟨fs', hw⟩ := C92_compress_succeeds (most := wholeReads) (c := plainCiso) hsp wholeReads_ok plain_numbered hst
    ⟨[], rfl, hname, hstem, hd⟩ hno hpw (by decide) hp
  refine ⟨fs', hw, fun fuel hf => ?_⟩
  have hlen : (partsOf plainCiso img).length = 1 := rfl
  exact C95_parts_opened hsp wholeReads_ok plain_works plain_numbered hst hname hstem hd hno hp (extra := [[7]]) (by
    intro j b hj
    rw [hlen]
    cases j with
    | zero => cases hj; rfl
    | succ j => simp at hj) (by rw [hlen]; rfl) hw (by rw [hlen]; exact hf)

/-- C95, a directory among the parts: if the names of the parts are those of files up to one that is the name of a
directory, the image is not opened as if it ended there. -/
theorem C95_directory_part {fs : HostFs} {dir : Str} (hname : HostName name) (hstem : HasStem name stem)
    (hd : PrefixNames h fs dir d) {n : Nat}
    (hfile : ∀ j, j < n → ∃ b, fs (d ++ [partFile stem (j + 1)]) = some (.file b))
    (hdir : fs (d ++ [partFile stem (n + 1)]) = some .dir) {fuel : Nat} (hf : n < fuel) :
    openPath h c fuel fs (dir ++ partFile stem 1) = .err .io :=
  openPath_dir (stem_ok hname hstem) hd hfile hdir hf

/-- `/w/o.1.cso` is a file and `/w/o.2.cso` a directory. -/
example : openPath ⟨[['w']], fun _ => .none⟩ plainCiso 5
    ((emptySource.set [['w'], ['o', '.', '1', '.', 'c', 's', 'o']] (.file [7])).set
      [['w'], ['o', '.', '2', '.', 'c', 's', 'o']] .dir) (partFile ['o'] 1) = .err .io :=
  C95_directory_part (dir := []) (name := ['o', '.', 'c', 's', 'o']) (stem := ['o']) (d := [['w']]) (n := 1)
    (by unfold HostName; decide) (.inl ⟨['c', 's', 'o'], rfl, by decide, by decide⟩)
    ⟨.inl rfl, by decide, .inl ⟨rfl, rfl⟩⟩
    (fun j hj => by obtain rfl : j = 0 := by omega
                    exact ⟨[7], rfl⟩) rfl (by decide)

/-! ## C96: images -/

theorem compressImage_eq {b : Bytes} {base : Nat} {vol : VolDesc} (h1 : offsetNew (fileDev b) = .ok base)
    (h2 : readVolume (offsetDev (fileDev b) base) = .ok vol) {ifs' : ImgFs} {s : PackState SecMap}
    (h3 : repackLinear (defaultCopier (offsetDev (fileDev b) base)) t.wfuel t.fuel
      ⟨offsetDev (fileDev b) base, vol, Trie.empty⟩ ⟨[], []⟩ = (.ok ifs', s)) :
    compressImage h t c fs src b image = encodeLoop h c image
      (fun fs => imgBufCopy (defaultCopier (offsetDev (fileDev (imageNow fs src)) base)) ifs') s.dev
      (linLen s.dev / 2048) [] fs := by
  have hnew : ImgFs.new (offsetDev (fileDev b) base) = .ok (some ⟨offsetDev (fileDev b) base, vol, Trie.empty⟩) := by
    unfold ImgFs.new; rw [h2]
  unfold compressImage
  simp only [h1, hnew, h3]

theorem offset_multiple {dev : Dev} {base : Nat} (ho : offsetNew dev = .ok base) : base % 2048 = 0 := by
  have := offset_listed ho
  simp only [xdvdOffsets, List.mem_cons, List.not_mem_nil, or_false] at this
  rcases this with rfl | rfl | rfl | rfl <;> rfl

/-- C96 is false: an image with a file that is not empty and smaller than a sector is never compressed. -/
theorem C96_small_file_false (hn : NumberedParts c) {b : Bytes} (hst : h.stat fs source = some (src, .file b))
    (ho : OutputAt h fs image name stem d) (hno : NoPartInSource fs src d stem)
    {tree : Path → Res (List FileEntry)} {content : Path → Bytes} (hi : ImageHolds b t.wfuel tree content)
    {q : Path} {e : FileEntry} (he : EntryIn tree q e) (hd : e.isDir = false) (h0 : 0 < e.len) (h1 : e.len < 2048) :
    (cmdCompressArgs h t r most c fs source (some image)).1 ≠ .ok () := by
  obtain ⟨dir, hb, hp⟩ := OutputAt.beside hn ho
  obtain ⟨base, vol, i1, i2, rfl, i4⟩ := hi
  obtain ⟨_, _, hsrc⟩ := stat_some hst
  have hnow : imageNow fs src = b := by unfold imageNow; rw [hsrc]
  have hnew : ImgFs.new (offsetDev (fileDev b) base) = .ok (some ⟨offsetDev (fileDev b) base, vol, Trie.empty⟩) := by
    unfold ImgFs.new; rw [i2]
  rw [cmdCompressArgs_eq (image := some image) hst rfl]
  split
  · simp
  simp only
  rcases hr : repackLinear (defaultCopier (offsetDev (fileDev b) base)) t.wfuel t.fuel
      ⟨offsetDev (fileDev b) base, vol, Trie.empty⟩ ⟨[], []⟩ with ⟨res, m, log⟩
  cases res with
  | ok ifs' =>
    rw [compressImage_eq i1 i2 hr]
    intro hok
    obtain ⟨k, k1, k2⟩ := C40_small_file_panics hnew i4 he hd h0 h1 hr
    rcases hx : encodeLoop h c image (fun fs => imgBufCopy (defaultCopier (offsetDev (fileDev (imageNow fs src)) base)) ifs')
      m (linLen m / 2048) [] fs with ⟨res, fs'⟩
    rw [hx] at hok
    simp only at hok
    subst hok
    obtain ⟨rest, j1, j2, _⟩ := encodeLoop_ok (image_stable hb hp hno hsrc) _ _ (.refl _ _) hx
    have := j2 k rest[k] (List.getElem?_eq_getElem (by omega))
    simp only [List.length_nil, Nat.zero_add, hnow] at this
    rw [k2] at this
    cases this
  | _ =>
    unfold compressImage
    simp only [i1, hnew, hr]
    simp

/-- An image file that ends with a complete sector has the last sectors of all its files. -/
theorem whole_sectorsIn {b : Bytes} (hlen : b.length % 2048 = 0) {wf : Nat} {tree : Path → Res (List FileEntry)}
    {content : Path → Bytes} (hi : ImageHolds b wf tree content) : FileSectorsIn b wf := by
  obtain ⟨base, vol, i1, i2, rfl, i4⟩ := hi
  intro base' vol' k1 k2
  rw [i1] at k1; cases k1
  rw [i2] at k2; cases k2
  exact whole_complete (offsetDev_whole hlen (offset_multiple i1)) i4

/-- C96 is false: an image that ends within the last sector of one of its files is never compressed. -/
theorem C96_cut_file_false (hn : NumberedParts c) {b : Bytes} (hst : h.stat fs source = some (src, .file b))
    (ho : OutputAt h fs image name stem d) (hno : NoPartInSource fs src d stem) (h64 : b.length < 2 ^ 64)
    {tree : Path → Res (List FileEntry)} {content : Path → Bytes} (hi : ImageHolds b t.wfuel tree content)
    (hcut : ¬ FileSectorsIn b t.wfuel) :
    (cmdCompressArgs h t r most c fs source (some image)).1 ≠ .ok () := by
  obtain ⟨dir, hb, hp⟩ := OutputAt.beside hn ho
  obtain ⟨base, vol, i1, i2, rfl, i4⟩ := hi
  obtain ⟨_, _, hsrc⟩ := stat_some hst
  have hnow : imageNow fs src = b := by unfold imageNow; rw [hsrc]
  have hnew : ImgFs.new (offsetDev (fileDev b) base) = .ok (some ⟨offsetDev (fileDev b) base, vol, Trie.empty⟩) := by
    unfold ImgFs.new; rw [i2]
  have hcut' : ¬ CompleteSectors (offsetDev (fileDev b) base) t.wfuel vol.root := by
    intro hx
    refine hcut fun base' vol' k1 k2 => ?_
    rw [i1] at k1; cases k1
    rw [i2] at k2; cases k2
    exact hx
  rw [cmdCompressArgs_eq (image := some image) hst rfl]
  split
  · simp
  simp only
  rcases hr : repackLinear (defaultCopier (offsetDev (fileDev b) base)) t.wfuel t.fuel
      ⟨offsetDev (fileDev b) base, vol, Trie.empty⟩ ⟨[], []⟩ with ⟨res, m, log⟩
  cases res with
  | ok ifs' =>
    rw [compressImage_eq i1 i2 hr]
    intro hok
    obtain ⟨k, k1, k2⟩ := C40_cut_file_false hnew (offsetDev_parts h64 base) (offsetDev_joins (fileDev_joins b) base) i4
      hcut' hr
    rcases hx : encodeLoop h c image (fun fs => imgBufCopy (defaultCopier (offsetDev (fileDev (imageNow fs src)) base)) ifs')
      m (linLen m / 2048) [] fs with ⟨res, fs'⟩
    rw [hx] at hok
    simp only at hok
    subst hok
    obtain ⟨rest, j1, j2, _⟩ := encodeLoop_ok (image_stable hb hp hno hsrc) _ _ (.refl _ _) hx
    have := j2 k rest[k] (List.getElem?_eq_getElem (by omega))
    simp only [List.length_nil, Nat.zero_add, hnow] at this
    exact k2 _ this
  | _ =>
    unfold compressImage
    simp only [i1, hnew, hr]
    simp

/-- C96 for images whose files are empty, or at least a sector long and in the image to the end of their last sector
(partial).  Missing: smaller files, see `C96_small_file_false`, and images that end within the last sector of a file, see
`C96_cut_file_false`.  If compressing such an image succeeds, the
parts hold an encoded image that holds the tree and the contents of the source; nothing else has changed. -/
theorem C96_compressed_image_partial (hc : CisoWorks c) (hn : NumberedParts c) {b : Bytes}
    (hst : h.stat fs source = some (src, .file b)) (ho : OutputAt h fs image name stem d)
    (hno : NoPartInSource fs src d stem) (hsec : FileSectorsIn b t.wfuel) (h64 : b.length < 2 ^ 64)
    {tree : Path → Res (List FileEntry)} {content : Path → Bytes} (hi : ImageHolds b t.wfuel tree content)
    (hbig : ∀ q e, EntryIn tree q e → e.isDir = false → e.len = 0 ∨ 2048 ≤ e.len)
    (hw : cmdCompressArgs h t r most c fs source (some image) = (.ok (), fs')) :
    ∃ img, HoldsTree (fileDev img) tree content ∧ StoredParts fs' d stem (partsOf c img) ∧
      ∀ q, (∀ i, i < (partsOf c img).length → q ≠ d ++ [partFile stem (i + 1)]) → fs' q = fs q := by
  obtain ⟨dir, hb, hp⟩ := OutputAt.beside hn ho
  obtain ⟨base, vol, i1, i2, rfl, i4⟩ := hi
  obtain ⟨_, _, hsrc⟩ := stat_some hst
  have hnow : imageNow fs src = b := by unfold imageNow; rw [hsrc]
  have hnew : ImgFs.new (offsetDev (fileDev b) base) = .ok (some ⟨offsetDev (fileDev b) base, vol, Trie.empty⟩) := by
    unfold ImgFs.new; rw [i2]
  rw [cmdCompressArgs_eq (image := some image) hst rfl] at hw
  split at hw
  · cases hw
  simp only at hw
  rcases hr : repackLinear (defaultCopier (offsetDev (fileDev b) base)) t.wfuel t.fuel
      ⟨offsetDev (fileDev b) base, vol, Trie.empty⟩ ⟨[], []⟩ with ⟨res, m, log⟩
  cases res with
  | ok ifs' =>
    rw [compressImage_eq i1 i2 hr] at hw
    obtain ⟨img, v1, v2⟩ := C40_compress_from_image_partial hnew (offsetDev_parts h64 base)
      (hsec _ _ i1 i2) i4 hbig hr
    obtain ⟨img', j1, _, j3, j4⟩ := encode_stored hc hb hp (imgBufCopy_keeps _ _) (image_stable hb hp hno hsrc) hw
    simp only [hnow] at j1
    rw [v1] at j1
    cases j1
    exact ⟨img, v2, j3, j4⟩
  | _ =>
    unfold compressImage at hw
    simp only [i1, hnew, hr] at hw
    cases hw

/-- C96, success: such an image is compressed, if its names and tables can be written again and nothing stands in the
way of the output. -/
theorem C96_compress_succeeds_partial (hn : NumberedParts c) {b : Bytes}
    (hst : h.stat fs source = some (src, .file b)) (ho : OutputAt h fs image name stem d)
    (hno : NoPartInSource fs src d stem) (hpw : PartsWritable h fs d stem)
    (hre : compressRefused h fs source image = false) (hsec : FileSectorsIn b t.wfuel) (h64 : b.length < 2 ^ 64)
    {tree : Path → Res (List FileEntry)} {content : Path → Bytes} (hi : ImageHolds b t.wfuel tree content)
    (hbig : ∀ q e, EntryIn tree q e → e.isDir = false → e.len = 0 ∨ 2048 ≤ e.len)
    {all : List (Path × List FileEntry)} (hL : Listable tree) (ht : TreeOf tree all) (hF : Fits all)
    (hS : ∀ x ∈ all, StorableListing x.2) (hK : ∀ x ∈ all, TableWithin256K x.2)
    (hlat : ∀ x ∈ all, ∀ e ∈ x.2, Latin1 e.name) (hfu : all.length ≤ t.fuel) :
    ∃ fs', cmdCompressArgs h t r most c fs source (some image) = (.ok (), fs') := by
  obtain ⟨dir, hb, hp⟩ := OutputAt.beside hn ho
  obtain ⟨base, vol, i1, i2, rfl, i4⟩ := hi
  obtain ⟨_, _, hsrc⟩ := stat_some hst
  have hnow : imageNow fs src = b := by unfold imageNow; rw [hsrc]
  have hnew : ImgFs.new (offsetDev (fileDev b) base) = .ok (some ⟨offsetDev (fileDev b) base, vol, Trie.empty⟩) := by
    unfold ImgFs.new; rw [i2]
  obtain ⟨ifs', m, log, hr⟩ := repackLinear_works (copier := defaultCopier (offsetDev (fileDev b) base)) (wf := t.wfuel)
    (fs := ⟨offsetDev (fileDev b) base, vol, Trie.empty⟩) rfl hL ht hF hS hK hlat hfu
  obtain ⟨img, v1, _⟩ := C40_compress_from_image_partial hnew (offsetDev_parts h64 base)
    (hsec _ _ i1 i2) i4 hbig hr
  rw [cmdCompressArgs_eq (image := some image) hst rfl, if_neg (by simp [hre])]
  simp only
  rw [compressImage_eq i1 i2 hr]
  refine encodeLoop_succeeds hb (image_stable hb hp hno hsrc) hp (fun j => (hpw j).1) (fun j => (hpw j).2) _ []
    (.refl _ _) ?_
  intro k _ hk
  simp only [hnow]
  exact view_reads _ v1 k (by simpa using hk)

/-- C96, exactly: an image whose names and tables can be written again is compressed, if nothing stands in the way of the
output, if and only if each of its files is empty, or is at least a sector long and in the image to the end of its last
sector. -/
theorem C96_compress_iff (hn : NumberedParts c) {b : Bytes} (hst : h.stat fs source = some (src, .file b))
    (ho : OutputAt h fs image name stem d) (hno : NoPartInSource fs src d stem) (hpw : PartsWritable h fs d stem)
    (hre : compressRefused h fs source image = false) (h64 : b.length < 2 ^ 64)
    {tree : Path → Res (List FileEntry)} {content : Path → Bytes} (hi : ImageHolds b t.wfuel tree content)
    {all : List (Path × List FileEntry)} (hL : Listable tree) (ht : TreeOf tree all) (hF : Fits all)
    (hS : ∀ x ∈ all, StorableListing x.2) (hK : ∀ x ∈ all, TableWithin256K x.2)
    (hlat : ∀ x ∈ all, ∀ e ∈ x.2, Latin1 e.name) (hfu : all.length ≤ t.fuel) :
    (∃ fs', cmdCompressArgs h t r most c fs source (some image) = (.ok (), fs')) ↔
      FileSectorsIn b t.wfuel ∧ ∀ q e, EntryIn tree q e → e.isDir = false → e.len = 0 ∨ 2048 ≤ e.len := by
  constructor
  · rintro ⟨fs', hw⟩
    refine ⟨Classical.byContradiction fun hcut => ?_, fun q e he hd => Classical.byContradiction fun hbig => ?_⟩
    · exact C96_cut_file_false hn hst ho hno h64 hi hcut (by rw [hw])
    · exact C96_small_file_false hn hst ho hno hi he hd (by omega) (by omega) (by rw [hw])
  · rintro ⟨hsec, hbig⟩
    exact C96_compress_succeeds_partial hn hst ho hno hpw hre hsec h64 hi hbig hL ht hF hS hK hlat hfu

/-- A host with an image `/i` and nothing else. -/
def oneImage (b : Bytes) : HostFs := fun q => if q = [] then some .dir else if q = [['i']] then some (.file b) else none

theorem oneImage_output (b : Bytes) :
    Host.stat ⟨[], fun _ => .none⟩ (oneImage b) ['i'] = some ([['i']], .file b) ∧
    OutputAt ⟨[], fun _ => .none⟩ (oneImage b) ['o', '.', 'c', 's', 'o'] ['o', '.', 'c', 's', 'o'] ['o'] [] ∧
    NoPartInSource (oneImage b) [['i']] [] ['o'] ∧ PartsWritable ⟨[], fun _ => .none⟩ (oneImage b) [] ['o'] ∧
    compressRefused ⟨[], fun _ => .none⟩ (oneImage b) ['i'] ['o', '.', 'c', 's', 'o'] = false := by
  refine ⟨rfl, ⟨[], rfl, by unfold HostName; decide, .inl ⟨['c', 's', 'o'], rfl, by decide, by decide⟩, .inl rfl, rfl,
    .inl ⟨rfl, rfl⟩⟩, ?_, ?_, rfl⟩
  · rintro i x _ ⟨q, hq⟩
    simp [partFile] at hq
  · intro i
    refine ⟨rfl, ?_⟩
    unfold oneImage
    rw [if_neg (by simp), if_neg (by simp [partFile])]
    simp

/-- The hypotheses of `C96_small_file_false` hold for the image of the sample. -/
example : ∃ b, Host.stat ⟨[], fun _ => .none⟩ (oneImage b) ['i'] = some ([['i']], .file b) ∧
    (∃ tree, ImageHolds b sampleTool.wfuel tree sampleContent) ∧
    ∀ r most c, NumberedParts c → (cmdCompressArgs ⟨[], fun _ => .none⟩ sampleTool r most c (oneImage b) ['i']
      (some ['o', '.', 'c', 's', 'o'])).1 ≠ .ok () := by
  obtain ⟨s1, h1⟩ := sample_packs []
  obtain ⟨vol, k1, k2, k3⟩ := packed_open sample'_bounded sample'_faithful h1
  obtain ⟨k4, k5⟩ := k3 3 sample_scanFuel
  obtain ⟨o1, o2, o3, _, _⟩ := oneImage_output s1.dev.img
  have hi : ImageHolds s1.dev.img sampleTool.wfuel _ sampleContent := ⟨0, vol, k1, k2, rfl, k5⟩
  refine ⟨s1.dev.img, o1, ⟨_, hi⟩, ?_⟩
  intro r most c hn
  obtain ⟨e, he, e1, e2, e3⟩ := k4.entry ((sample_entries [['A']] ⟨['c'], false, 3⟩).2 (.inr (.inr ⟨rfl, rfl⟩)))
  have hl := e3 rfl
  exact C96_small_file_false hn o1 o2 o3 hi he e2 (by rw [hl]; decide) (by rw [hl]; decide)

set_option maxRecDepth 20000 in
theorem cut_opens : offsetNew (fileDev cutImage) = .ok 0 := by
  rw [cutImage, handDev_eq]; decide +kernel

set_option maxRecDepth 20000 in
theorem cut_volume0 : readVolume (offsetDev (fileDev cutImage) 0) = .ok (VolDesc.new ⟨33, 2048⟩) := by
  rw [cutImage, handDev_eq]; decide +kernel

set_option maxRecDepth 20000 in
theorem cut_scan0 : scanAll (offsetDev (fileDev cutImage) 0) ⟨33, 2048⟩ 2 = .ok [cutEntry] := by
  rw [cutImage, handDev_eq]; decide +kernel

theorem offset0_read (dev : Dev) {off n : Nat} (h : off < 2 ^ 64) : (offsetDev dev 0).read off n = dev.read off n := by
  show offsetRead _ _ _ _ = _
  unfold offsetRead
  rw [Nat.add_zero, if_pos h]

theorem cut_holds : ImageHolds cutImage 2 (imgReadDir (offsetDev (fileDev cutImage) 0) 2 ⟨33, 2048⟩)
    (fun _ => slice cutImage 67584 2100) := by
  refine ⟨0, _, cut_opens, cut_volume0, rfl, ?_⟩
  intro p ds d hp hds hd _
  have hp' := ((onlyFiles_tree cut_scan0 (by decide)).1 p).1 hp
  subst hp'
  have e : imgDirents (offsetDev (fileDev cutImage) 0) 2 ⟨33, 2048⟩ [] = .ok [cutEntry] := by
    simp only [imgDirents, imgTable, Res.ok_bind]
    exact cut_scan0
  have hds' := hds
  rw [show (VolDesc.new ⟨33, 2048⟩).root = ⟨33, 2048⟩ from rfl, e] at hds'
  cases hds'
  simp only [List.mem_singleton] at hd
  subst hd
  rw [← cut_data]
  unfold readDataAll
  rw [if_neg (by decide), if_neg (by decide), show cutEntry.node.dirent.data.offset 0 = .ok 67584 from by decide]
  simp only [Res.ok_bind]
  exact offset0_read _ (by decide)

theorem cut_notIn : ¬ FileSectorsIn cutImage 2 := by
  intro h
  have hc := h 0 _ cut_opens cut_volume0
  obtain ⟨b, hb⟩ := hc [] [cutEntry] cutEntry .root (by
    simp only [imgDirents, imgTable, Res.ok_bind]
    exact cut_scan0) (by simp) (by decide) (by decide)
  rw [show 2048 * cutEntry.node.dirent.data.sector.toNat = 67584 from by decide,
    show roundUp cutEntry.node.dirent.data.size.toNat = 4096 from by decide, offset0_read _ (by decide), cut_cut] at hb
  cases hb

/-- The hypotheses of `C96_cut_file_false` hold for the image `cutImage`, whose file can be read. -/
example (r : DirReader) (most : Path → (off n : Nat) → Nat) {c : Ciso} (hn : NumberedParts c) :
    (cmdCompressArgs ⟨[], fun _ => .none⟩ ⟨fun _ _ => false, fun b => [b], 2, 9⟩ r most c (oneImage cutImage) ['i']
      (some ['o', '.', 'c', 's', 'o'])).1 ≠ .ok () := by
  obtain ⟨o1, o2, o3, _, _⟩ := oneImage_output cutImage
  exact C96_cut_file_false hn o1 o2 o3 (by rw [cut_length]; decide) cut_holds cut_notIn

/-- The hypotheses of the partial theorems hold for the image of a directory with one file of 2 KiB to 1 MiB; that it is
shorter than 2^64 bytes is clear for a file. -/
example {x : Bytes} (hx : x.length < 2 ^ 20) (hx' : 2048 ≤ x.length) (r : DirReader) (most : Path → (off n : Nat) → Nat) :
    ∃ s1, createImage (fileEnv (flatFs [(['b'], x)]) (fun _ => none)) 1 ⟨⟨[], []⟩, []⟩ = (.ok (), s1) ∧
    (s1.dev.img.length < 2 ^ 64 → ∃ fs' img, cmdCompressArgs ⟨[], fun _ => .none⟩ sampleTool r most splitCiso
      (oneImage s1.dev.img) ['i'] (some ['o', '.', 'c', 's', 'o']) = (.ok (), fs') ∧
      StoredParts fs' [] ['o'] (partsOf splitCiso img)) := by
  have hok := big_ok hx
  obtain ⟨s1, h1⟩ := flat_packs hok []
  refine ⟨s1, h1, fun h64 => ?_⟩
  obtain ⟨vol, k1, k2, k3⟩ := packed_open (flat_bounded _) (flat_faithful hok.distinct) h1
  obtain ⟨hs, k5⟩ := k3 3 (flat_scanFuel (by simp))
  obtain ⟨M, Loc, l0, hP⟩ := pack_packed (flat_bounded _) (flat_faithful hok.distinct) h1
  obtain ⟨tree', t1, t2, t3, t4⟩ := hs.tree hP.listable (flat_tree _)
  obtain ⟨o1, o2, o3, o4, o5⟩ := oneImage_output s1.dev.img
  have hi : ImageHolds s1.dev.img sampleTool.wfuel _ (flatContent [(['b'], x)]) := ⟨0, vol, k1, k2, rfl, k5⟩
  have hlen := (C35_length_multiple h1).2
  have hbig : ∀ q e, EntryIn (imgReadDir (offsetDev (fileDev s1.dev.img) 0) 3 vol.root) q e → e.isDir = false →
      e.len = 0 ∨ 2048 ≤ e.len := by
    intro q e he hd
    obtain ⟨e', he', j1, j2, j3⟩ := (hs.symm (flat_listable _)).entry he
    obtain ⟨_, y, hy, rfl⟩ := (flat_entries _ _).1 he'
    simp only [List.mem_singleton] at hy
    subst hy
    have := j3 hd
    simp only at this
    omega
  obtain ⟨fs', hw⟩ := C96_compress_succeeds_partial (r := r) (most := most) (c := splitCiso) (t := sampleTool)
    split_numbered o1 o2 o3 o4 o5 (whole_sectorsIn (by omega) hi) h64 hi hbig (all := tree') (by
      intro p hp
      obtain ⟨l, h1⟩ := hP.listable p ((hs.dirs p).2 hp)
      obtain ⟨l', h2, _⟩ := hs.lists p l ((hs.dirs p).2 hp) h1
      exact ⟨l', h2⟩) t1 ⟨by rw [t3]; exact (flat_fits hok).1, by
        intro y hy
        obtain ⟨z, hz, hp⟩ := t4 y hy
        have := hp.length_eq
        simp only [List.length_map] at this
        rw [← this]
        exact (flat_fits hok).2 z hz⟩ (by
        intro y hy
        obtain ⟨z, hz, hp⟩ := t4 y hy
        exact sig_storable hp (flat_storable hok z hz)) (by
        intro y hy
        obtain ⟨z, hz, hp⟩ := t4 y hy
        exact few_within (sig_few hp (flat_few hok z hz))) (by
        intro y hy e he
        obtain ⟨z, hz, hp⟩ := t4 y hy
        obtain ⟨e', he', hn, _⟩ := sig_mem hp.symm he
        rw [← hn]
        simp only [flatTree, List.mem_singleton] at hz
        subst hz
        simp only [List.map_cons, List.map_nil, List.mem_singleton] at he'
        subst he'
        intro c hc
        simp only [List.mem_singleton] at hc
        subst hc
        decide) (by rw [t2]; simp [flatTree, sampleTool])
  obtain ⟨img, _, g2, _⟩ := C96_compressed_image_partial split_works split_numbered o1 o2 o3 (whole_sectorsIn (by omega) hi) h64 hi hbig hw
  exact ⟨fs', img, hw, g2⟩

end Xdvdfs.Props
