import Verif.Props.CopyRange
import Verif.Props.Cli

/-!
# C73 and C120, exactly

Where `-d` puts a rewritten image, and what copying any range of a file of an image delivers.
-/

namespace Xdvdfs.Spec

/-- Where a rewritten image is found: without `-d` in the place of the image, with `-d` under its name beside the directory
given, or in it if it is the root. -/
def foundDest (dir : Option HostPath) (src : HostPath) : HostPath :=
  match dir with
  | some d => d.dropLast ++ src.getLast?.toList
  | none => src

end Xdvdfs.Spec

namespace Xdvdfs.Props

open Xdvdfs Spec

/-- C73, exactly.  After a successful rewrite, with or without `-d`, the new image is complete, and it is at `foundDest`;
this is where it is expected if there is no `-d` or it names the root, and nowhere else. -/
theorem C73_exactly (t : Tool) (ht : ∀ b, (t.split b).flatten = b) {dir : Option HostPath}
    (delete : Bool) {images : List (HostPath × Faults)} {fs : HostFs}
    (hsep : images.Pairwise (fun a b => Separate dir a.1 b.1)) {src : HostPath} {faults : Faults} {img : Bytes}
    (hmem : (src, faults) ∈ images) (himg : IsFile fs src img) (hflush : ClosesCleanly t faults)
    {tree : Path → Res (List FileEntry)} {content : Path → Bytes} (hold : ImageHolds img t.wfuel tree content)
    {st : HostFs} (h : (rewriteAll t dir delete images fs).2 = .ok st) :
    (∃ out, IsFile st (foundDest dir src) out ∧ HoldsTree (fileDev out) tree content) ∧
    (foundDest dir src = expectedDest dir src ↔ dir = none ∨ dir = some []) := by
  obtain ⟨fs', st', h1, h2, h3⟩ := rewriteAll_done images fs himg hmem hsep st h
  obtain ⟨img', _, _, ho, hp⟩ := rewriteOne_ok h2
  have hi := ho.file
  rw [h1] at hi
  cases hi
  have hr := ho.result hp delete
  rw [h2] at hr
  simp only [Res.ok.injEq] at hr
  have hne : rewriteDest dir src ≠ oldPath src := by
    obtain ⟨_, hnp, _, _⟩ := packOpen_ok ho.opened
    exact fun he => hnp (by rw [he]; exact List.prefix_refl _)
  have hs : src ≠ [] := by
    rintro rfl
    have := ho.renamed
    simp [HostFs.rename, ho.file, oldPath, onFileName] at this
  obtain ⟨name, hname⟩ : ∃ name, src.getLast? = some name := by
    cases hl : src.getLast? with
    | none => exact absurd (List.getLast?_eq_none_iff.1 hl) hs
    | some name => exact ⟨name, rfl⟩
  have hd : foundDest dir src = rewriteDest dir src := by
    cases dir with
    | none => rfl
    | some d => simp [foundDest, rewriteDest, hname]
  refine ⟨⟨_, ?_, (packImage_success ht hold hp (hflush img hp)).1⟩, ?_⟩
  · unfold IsFile
    rw [hd, h3 _ (by simp [touched]), hr]
    simp [hne]
  · cases dir with
    | none => simp [foundDest, expectedDest]
    | some d =>
      simp only [foundDest, expectedDest, List.append_cancel_right_eq, reduceCtorEq, Option.some.injEq, false_or]
      constructor
      · intro he
        have := congrArg List.length he
        rw [List.length_dropLast] at this
        exact List.eq_nil_of_length_eq_zero (by omega)
      · rintro rfl; rfl

/-- The hypotheses of `C73_exactly` hold, with a successful run into a directory that is not the root. -/
example : ∃ img st, IsFile (twoHost img img) pathA img ∧
    (rewriteAll sampleTool (some [['o']]) false [(pathA, fun _ => none)] (twoHost img img)).2 = .ok st ∧
    foundDest (some [['o']]) pathA ≠ expectedDest (some [['o']]) pathA := by
  obtain ⟨s1, k1⟩ := sample_packs []
  have w1 := packed_works sample'_bounded sample'_faithful k1 sample_tree sample_fits sample_storable sample_few
    sample_latin1 sampleTool sample_scanFuel (by decide)
  obtain ⟨_, _, o1⟩ := opens_of (dir := some [['o']]) (fs := twoHost s1.dev.img s1.dev.img) (src := pathA) rfl
    (by rw [oldPath_A]; exact nofun) (by rw [oldPath_A]; rfl) (by rw [oldPath_A, dest_A]; decide)
    (by rw [dest_A]; exact nofun) (by rw [dest_A]; rfl)
  exact ⟨s1.dev.img, _, rfl, rewriteAll_one (o1.result w1 false), by decide⟩

/-- C120, an image, exactly: what copying any range of a file delivers.  The size is first cut to that of the whole file;
if nothing is left, nothing is copied.  A range that starts after the end is refused.  Otherwise the bytes delivered are
those of the image from the start of the range on, which begin with what is left of the file; they are the part of the file
asked for if and only if the range, as it was cut, ends inside the file. -/
theorem C120_image_exactly {dev : Dev} {fs fs' : ImgFs} (hn : ImgFs.new dev = .ok (some fs)) (hp : PartsReadable dev)
    {wf : Nat} {dirs : List Path} (hl : Lists wf fs dirs fs') {p : Path} (hd : p ∈ dirs) {ds : List DirEnt} {d : DirEnt}
    {name : Str} (hds : imgDirents dev wf fs.vol.root p = .ok ds) (he : firstNamed ds name = some d) {data : Bytes}
    (hc : readDataAll dev d.node.dirent = .ok data) (rd : Path → Res (List FileEntry)) (off size : Nat) :
    (min size data.length = 0 → (fs'.source rd (defaultCopier dev)).copy (p ++ [name]) off size = ([], .ok 0)) ∧
    (0 < min size data.length → data.length ≤ off →
      (fs'.source rd (defaultCopier dev)).copy (p ++ [name]) off size = ([], .err .sizeOutOfBounds)) ∧
    (0 < min size data.length → off < data.length → ∀ b,
      dev.read (2048 * d.node.dirent.data.sector.toNat + off) (min size data.length) = .ok b →
      ((fs'.source rd (defaultCopier dev)).copy (p ++ [name]) off size).2 = .ok (min size data.length) ∧
      ((fs'.source rd (defaultCopier dev)).copy (p ++ [name]) off size).1.flatten = b ∧
      (data.drop off).take size <+: b ∧
      (b = (data.drop off).take size ↔ off + min size data.length ≤ data.length)) := by
  obtain ⟨rfl, k2, _⟩ := new_spec hn
  have hg := cached hl k2 hd hds he
  obtain ⟨hlen, hread⟩ := data_parts hp hc
  have e : (fs'.source rd (defaultCopier fs.dev)).copy (p ++ [name]) off size = fs'.copy (defaultCopier fs.dev) (p ++ [name]) off size := rfl
  rw [e]
  unfold ImgFs.copy
  simp only [hg, ← hlen]
  refine ⟨fun h0 => by rw [if_pos h0], fun h0 h1 => ?_, fun h0 h1 b hb => ?_⟩
  · rw [if_neg (by omega)]
    simp only [Region.offset]
    rw [if_pos (by omega)]
  · rw [if_neg (by omega)]
    simp only [Region.offset]
    rw [if_neg (by omega)]
    simp only [sectorSize]
    obtain ⟨g1, g2⟩ := defaultCopier_ok hp hb
    have hbl := fs.dev.read_len _ _ _ hb
    have hpre : (data.drop off).take size <+: b := by
      have hk : min size (data.length - off) ≤ b.length := by omega
      have hr := hp _ _ _ hb 0 (min size (data.length - off)) (by omega)
      rw [Nat.add_zero] at hr
      rcases Nat.eq_zero_or_pos (min size (data.length - off)) with hz | hpos
      · have : (data.drop off).take size = [] := by
          rw [← List.length_eq_zero_iff]; simp; omega
        rw [this]; exact List.nil_prefix
      · have hr2 := hread off (min size (data.length - off)) (by omega) hpos
        rw [hr2] at hr
        have hx : (data.drop off).take size = (data.drop off).take (min size (data.length - off)) := by
          rw [List.take_eq_take_iff]; simp
        have hy := Res.ok.inj hr
        rw [slice, List.drop_zero] at hy
        rw [hx, hy]
        exact List.take_prefix _ _
    refine ⟨g2, g1, hpre, ?_⟩
    have hl2 : ((data.drop off).take size).length = min size (data.length - off) := by simp
    constructor
    · intro hb2
      have := congrArg List.length hb2
      rw [hbl, hl2] at this
      omega
    · intro hle
      exact (hpre.eq_of_length (by rw [hbl, hl2]; omega)).symm

/-- The example of an image in `Verif.Props.CopyRange`, a file of three bytes whose image ends with a complete sector, meets
the hypotheses of `C120_image_exactly`; asked for three bytes from the second on, the range as cut does not end inside the
file, and from the first on it does. -/
example : ¬ 1 + min 3 [1, 2, 3].length ≤ [1, 2, 3].length ∧ 0 + min 9 [1, 2, 3].length ≤ [1, 2, 3].length := by decide

end Xdvdfs.Props
