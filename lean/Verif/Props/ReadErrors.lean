import Verif.Proof.IoCopy
import Verif.Proof.ReadErrors
import Verif.Props.ReadCli
import Verif.Props.Repack

/-!
# C121 and C122: read errors
-/

namespace Xdvdfs.Props

open Xdvdfs Spec

/-! ## C121: reading -/

/-- C121, the library: when reads of the device fail that would succeed otherwise, every reading operation comes to the
same as without the failures, or it reports an error. -/
theorem C121_operations {bad good : Dev} (h : FailsMore bad good) (fuel : Nat) :
    SameOrError (readVolume bad) (readVolume good) ∧
    (∀ vol, SameOrError (rootDirent vol bad) (rootDirent vol good)) ∧
    (∀ tab name, SameOrError (findDirent bad tab name fuel) (findDirent good tab name fuel)) ∧
    (∀ tab path, SameOrError (walkPath bad tab path fuel) (walkPath good tab path fuel)) ∧
    (∀ tab, SameOrError (walkDirentTree bad tab fuel) (walkDirentTree good tab fuel)) ∧
    (∀ tab, SameOrError (scanAll bad tab fuel) (scanAll good tab fuel)) ∧
    (∀ tab, SameOrError (fileTree bad tab fuel) (fileTree good tab fuel)) ∧
    (∀ d, SameOrError (readDataAll bad d) (readDataAll good d)) ∧
    (∀ d size off, SameOrError (readDataOffset bad d size off) (readDataOffset good d size off)) ∧
    ∀ (H : Type) (hash : Bytes → H) vol, SameOrError (checksum hash bad vol fuel) (checksum hash good vol fuel) := by
  refine ⟨fails_readVolume h, ?_, fun _ _ => fails_findDirent h _ _ _, fun _ _ => fails_walkPath h _ _ _,
    fun _ => fails_walkDirentTree h _ _, fun _ => fails_scanAll h _ _, fun _ => fails_fileTree h _ _,
    fun _ => fails_readDataAll h _, fun _ _ _ => fails_readDataOffset h _ _ _, fun _ _ _ => fails_checksum h _ _ _⟩
  intro vol
  unfold rootDirent
  split
  · exact soe_refl _
  · exact soe_bind (soe_refl _) fun _ _ => fails_readDirent h _

/-- C121, the commands: when reads of an opened image fail, a reading command prints the same as without the failures and
ends in the same way, or it reports an error, and what it has printed by then is the beginning of that. -/
theorem C121_commands {H : Type} {bad good : Dev} (h : FailsMore bad good) (r : Reader H) (image : Str) (cmd : ReadCmd) :
    PrintsLess (readOn r bad image cmd) (readOn r good image cmd) :=
  fails_readOn h r image cmd

/-- C121, images that end too early: a part of an image file that ends anywhere is such a device, at any partition. -/
theorem C121_cut_image (img : Bytes) (n base : Nat) :
    FailsMore (offsetDev (fileDev (img.take n)) base) (offsetDev (fileDev img) base) :=
  fails_offset (fails_take img n) base

/-- C121, the command line: a reading command on the beginning of an image file prints the same as on the whole image and
ends in the same way, or it reports an error.  What is missing from C121 are images with several volumes: see
`C121_other_volume_false`. -/
theorem C121_cut_file_partial {H : Type} (h h' : Host) (r : Reader H) {fs fs' : HostFs} {image image' shown : Str} {img : Bytes}
    {n : Nat} (hp : PlainFile h fs image img) (hp' : PlainFile h' fs' image' (img.take n)) (one : OneVolume (fileDev img))
    (cmd : ReadCmd) : PrintsLess (readCommand h' r fs' image' shown cmd) (readCommand h r fs image shown cmd) := by
  obtain ⟨⟨q, hst⟩, hext⟩ := hp
  obtain ⟨⟨q', hst'⟩, hext'⟩ := hp'
  unfold readCommand openPath
  rw [if_neg hext, hst, if_neg hext', hst']
  rcases fails_offsetNew (fails_take img n) one (fileDev_sane img _) with e | ⟨e, he⟩
  · simp only [e]
    cases offsetNew (fileDev img) with
    | ok base => exact fails_readOn (fails_offset (fails_take img n) base) r shown cmd
    | err e => exact .inl rfl
    | panic => exact .inl rfl
    | hang => exact .inl rfl
  · simp only [he]
    exact .inr ⟨⟨e, rfl⟩, List.nil_prefix⟩

/-- C121, extraction: unpacking the beginning of an image file, where the handle of the image cannot be duplicated, does the
same as unpacking the whole image, or it reports an error.  For the other way of extracting see
`C66_unpacked_complete_false`. -/
theorem C121_cut_unpack_partial (h : Host) {img : Bytes} (one : OneVolume (fileDev img)) (n : Nat) (dest : Str) (fuel : Nat)
    (fs : HostFs) : cmdUnpack h (img.take n) false dest fuel fs = cmdUnpack h img false dest fuel fs ∨
      ∃ e, (cmdUnpack h (img.take n) false dest fuel fs).1 = .err e := by
  unfold cmdUnpack
  rcases fails_offsetNew (fails_take img n) one (fileDev_sane img _) with e | ⟨e, he⟩
  · rw [e]
    cases offsetNew (fileDev img) with
    | ok base =>
      have hd := fails_offset (fails_take img n) base
      simp only
      rcases fails_readVolume hd with e | ⟨e, he⟩
      · rw [e]
        cases readVolume (offsetDev (fileDev img) base) with
        | ok v => exact fails_copyoutDirectory (r' := ⟨img.take n, base, false⟩) (r := ⟨img, base, false⟩) hd rfl rfl h dest _ _ _
        | err e => exact .inl rfl
        | panic => exact .inl rfl
        | hang => exact .inl rfl
      · rw [he]; exact .inr ⟨e, rfl⟩
    | err e => exact .inl rfl
    | panic => exact .inl rfl
    | hang => exact .inl rfl
  · rw [he]; exact .inr ⟨e, rfl⟩

/-- The same for a single file or directory. -/
theorem C121_cut_copyout_partial (h : Host) {img : Bytes} (one : OneVolume (fileDev img)) (n : Nat) (src dest : Str)
    (fuel : Nat) (fs : HostFs) : cmdCopyout h (img.take n) false src dest fuel fs = cmdCopyout h img false src dest fuel fs ∨
      ∃ e, (cmdCopyout h (img.take n) false src dest fuel fs).1 = .err e := by
  unfold cmdCopyout
  rcases fails_offsetNew (fails_take img n) one (fileDev_sane img _) with e | ⟨e, he⟩
  · rw [e]
    cases offsetNew (fileDev img) with
    | ok base =>
      have hd : FailsMore (RawImage.mk (img.take n) base false).dev (RawImage.mk img base false).dev :=
        fails_offset (fails_take img n) base
      simp only
      rcases fails_readVolume hd with e | ⟨e, he⟩
      · rw [e]
        cases readVolume (RawImage.mk img base false).dev with
        | ok v =>
          simp only
          split
          · exact fails_copyoutDirectory hd rfl rfl h dest _ _ _
          · rcases fails_walkPath hd v.root src fuel with e | ⟨e, he⟩
            · rw [e]
              cases walkPath (RawImage.mk img base false).dev v.root src fuel with
              | ok d =>
                simp only
                cases d.node.dirent.direntTable with
                | some tab => exact fails_copyoutDirectory hd rfl rfl h dest _ _ _
                | none => exact fails_writeFile h dest fs (fails_extract hd rfl rfl _)
              | err e => exact .inl rfl
              | panic => exact .inl rfl
              | hang => exact .inl rfl
            · rw [he]; exact .inr ⟨e, rfl⟩
        | err e => exact .inl rfl
        | panic => exact .inl rfl
        | hang => exact .inl rfl
      · rw [he]; exact .inr ⟨e, rfl⟩
    | err e => exact .inl rfl
    | panic => exact .inl rfl
    | hang => exact .inl rfl
  · rw [he]; exact .inr ⟨e, rfl⟩

/-! ### Cases -/

theorem fileRead_short {img : Bytes} {off n : Nat} (hn : n ≠ 0) (h : img.length < off + n) : fileRead img off n = .err .io := by
  unfold fileRead
  rw [if_neg hn, if_neg (by omega)]

/-- An image that is smaller than the smallest other place has one volume at most. -/
theorem oneVolume_small {img : Bytes} (h : img.length ≤ 34078720) : OneVolume (fileDev img) := by
  have key : ∀ o ∈ partitionOffsets, VolumeAt (fileDev img) o → o = 0 := by
    intro o ho hv
    obtain ⟨b, hb, _⟩ := hv
    have hc : o = 0 ∨ 34078720 ≤ o := by
      revert ho
      unfold partitionOffsets
      simp only [List.mem_cons, List.not_mem_nil, or_false]
      omega
    rcases hc with rfl | hc
    · rfl
    · exfalso
      have he : fileRead img (o + 65536) 2048 = .err .io := fileRead_short (by decide) (by omega)
      rw [show (fileDev img).read (o + 65536) 2048 = fileRead img (o + 65536) 2048 from rfl, he] at hb
      cases hb
  intro o ho o' ho' h1 h2
  rw [key o ho h1, key o' ho' h2]

/-- An image with one file, and its beginning, which ends before the data of the file: listing the directory comes to the
same, reading the file is an error.  On the command line the one is `x.iso` and the other is `d.iso`. -/
example (m : Nat) (hm : m = 2000000) : ∃ n, (truncImage ++ List.replicate m 7).take n = truncImage ∧
    OneVolume (fileDev (truncImage ++ List.replicate m 7)) ∧
    PlainFile ⟨[], fun _ => .none⟩ (twoForms (truncImage ++ List.replicate m 7) truncImage) ['x', '.', 'i', 's', 'o']
      (truncImage ++ List.replicate m 7) ∧
    PlainFile ⟨[], fun _ => .none⟩ (twoForms (truncImage ++ List.replicate m 7) truncImage) ['d', '.', 'i', 's', 'o'] truncImage ∧
    scanAll (fileDev truncImage) ⟨33, 2048⟩ 2 = .ok [truncEntry] ∧
    scanAll (fileDev (truncImage ++ List.replicate m 7)) ⟨33, 2048⟩ 2 = .ok [truncEntry] ∧
    readDataAll (fileDev truncImage) truncEntry.node.dirent = .err .io ∧
    readDataAll (fileDev (truncImage ++ List.replicate m 7)) truncEntry.node.dirent = .ok [7, 7, 7, 7, 7] := by
  have ht : (truncImage ++ List.replicate m 7).take 69632 = truncImage := by
    rw [← trunc_length, List.take_left']
    rfl
  obtain ⟨p1, p2⟩ := twoForms_plain (truncImage ++ List.replicate m 7) truncImage
  have hf : FailsMore (fileDev truncImage) (fileDev (truncImage ++ List.replicate m 7)) := by
    have := fails_take (truncImage ++ List.replicate m 7) 69632
    rw [ht] at this
    exact this
  refine ⟨69632, ht, oneVolume_small ?_, p1, p2, trunc_scan, soe_ok ((C121_operations hf 2).2.2.2.2.2.1 _) trunc_scan,
    trunc_data, ?_⟩
  · rw [List.length_append, trunc_length, List.length_replicate]; omega
  · have e : truncEntry.node.dirent.data.offset 0 = .ok 2048000 := by decide
    have z : truncEntry.node.dirent.data.size.toNat = 5 := by decide
    unfold readDataAll
    rw [if_neg (by decide), e]
    simp only [Res.ok_bind, z, fileDev_read]
    unfold fileRead
    rw [if_neg (by decide), if_pos (by rw [List.length_append, trunc_length, List.length_replicate]; omega),
      slice_append_right _ _ _ _ (by rw [trunc_length]; decide), trunc_length]
    unfold slice
    rw [List.drop_replicate, List.take_replicate, Nat.min_eq_left (by omega)]
    rfl

/-- Two volumes, at two of the places where images are looked for; the sector of the first can be read or not. -/
def twoRead (first : Bool) (off n : Nat) : Res Bytes :=
  if n = 2048 ∧ off = 65536 then if first then .ok (VolDesc.new ⟨33, 2048⟩).ser else .err .io
  else if n = 2048 ∧ off = 34144256 then .ok (VolDesc.new ⟨34, 2048⟩).ser
  else .err .io

def twoDev (first : Bool) : Dev where
  read := twoRead first
  read_len := by
    intro off n b h
    unfold twoRead at h
    split at h
    · rename_i hc
      split at h
      · cases h; rw [hc.1]; exact VolDesc.ser_length _ (VolDesc.new_wf _)
      · cases h
    · split at h
      · rename_i hc
        cases h; rw [hc.1]; exact VolDesc.ser_length _ (VolDesc.new_wf _)
      · cases h

/-- C121 is false where images are looked for: errors count as the absence of a volume there, so that when the sector of
one volume cannot be read, another volume is opened and no error is reported. -/
theorem C121_other_volume_false : ∃ bad good : Dev, FailsMore bad good ∧
    ∃ o o' v v', offsetNew good = .ok o ∧ readVolume (offsetDev good o) = .ok v ∧
      offsetNew bad = .ok o' ∧ readVolume (offsetDev bad o') = .ok v' ∧ v.root ≠ v'.root := by
  have hv : ∀ (d : Dev) (r : Region), d.read 65536 2048 = .ok (VolDesc.new r).ser → readVolume d = .ok (VolDesc.new r) := by
    intro d r hd
    rw [C06_read_volume_iff]
    exact ⟨_, hd, (C02_volume_new_roundtrip r).2.1, (VolDesc.deser_ser _ (VolDesc.new_wf r)).symm⟩
  have he : ∀ d : Dev, d.read 65536 2048 = .err .io → readVolume d = .err .invalidVolume := by
    intro d hd
    unfold readVolume
    rw [show sectorSize * 32 = 65536 from rfl, hd]
  have at0 : ∀ f, (offsetDev (twoDev f) 0).read 65536 2048 = twoRead f 65536 2048 := fun f => rfl
  have v0 : readVolume (offsetDev (twoDev true) 0) = .ok (VolDesc.new ⟨33, 2048⟩) := hv _ _ rfl
  have e0 : readVolume (offsetDev (twoDev false) 0) = .err .invalidVolume := he _ rfl
  have e1 : readVolume (offsetDev (twoDev false) 405798912) = .err .invalidVolume := he _ rfl
  have e2 : readVolume (offsetDev (twoDev false) 265879552) = .err .invalidVolume := he _ rfl
  have v3 : readVolume (offsetDev (twoDev false) 34078720) = .ok (VolDesc.new ⟨34, 2048⟩) := hv _ _ rfl
  refine ⟨twoDev false, twoDev true, ?_, 0, 34078720, _, _, ?_, v0, ?_, v3, ?_⟩
  · intro off n
    show SameOrError (twoRead false off n) (twoRead true off n)
    unfold twoRead
    split
    · exact soe_err
    · exact soe_refl _
  · unfold offsetNew xdvdOffsets offsetNewLoop
    rw [v0]
  · simp only [offsetNew, xdvdOffsets, offsetNewLoop, e0, e1, e2, v3]
  · show (⟨33, 2048⟩ : Region) ≠ ⟨34, 2048⟩
    decide

/-! ## C122: writing -/

/-- C122, packing: when the source reports errors that it would not report otherwise, packing does the same as without the
errors, writes and reports included, or it reports an error. -/
theorem C122_pack {bad good : SourceFs} (h : SourceFails bad good) (faults : Faults) (fuel : Nat) (s : PackState ImgFile) :
    createImage (fileEnv bad faults) fuel s = createImage (fileEnv good faults) fuel s ∨
      ∃ e, (createImage (fileEnv bad faults) fuel s).1 = .err e :=
  failsM_createImage (envFails_file h faults) fuel s

/-- C122, repacking: when reads of the source image fail, opening it fails, or repacking it does the same as without the
failures, or repacking reports an error.  (An image that ends too early is another matter when the command line tool copies
from it, since `std::io::copy` does not report that: see `C64_truncated_source_accepted_false`.) -/
theorem C122_repack {bad good : Dev} (h : FailsMore bad good) {fs' : ImgFs} (hn : ImgFs.new bad = .ok (some fs')) :
    ∃ fs, ImgFs.new good = .ok (some fs) ∧ ∀ faults wf fuel s,
      repackImage (defaultCopier bad) faults wf fuel fs' s = repackImage (defaultCopier good) faults wf fuel fs s ∨
        ∃ e, (repackImage (defaultCopier bad) faults wf fuel fs' s).1 = .err e := by
  unfold ImgFs.new at hn ⊢
  cases hv : readVolume bad with
  | ok v =>
    rw [hv] at hn
    cases hn
    rw [soe_ok (fails_readVolume h) hv]
    refine ⟨_, rfl, fun faults wf fuel s => ?_⟩
    exact failsM_repackImage (fails_defaultCopier h) faults wf fuel ⟨good, v, Trie.empty⟩ h s
  | err e => rw [hv] at hn; cases hn
  | panic => rw [hv] at hn; cases hn
  | hang => rw [hv] at hn; cases hn

/-- C122, repacking an image in a file, as the command line tool does it: the same, when any of the reads of `std::io::copy`
fail too. -/
theorem C122_repack_file {bad good : Dev} (h : FailsMore bad good) {badRead goodRead : ReadAt}
    (hr : ∀ pos n, SameOrError (badRead pos n) (goodRead pos n)) {fs' : ImgFs} (hn : ImgFs.new bad = .ok (some fs')) :
    ∃ fs, ImgFs.new good = .ok (some fs) ∧ ∀ buf base faults wf fuel s,
      repackImage (ioCopier badRead buf base) faults wf fuel fs' s =
          repackImage (ioCopier goodRead buf base) faults wf fuel fs s ∨
        ∃ e, (repackImage (ioCopier badRead buf base) faults wf fuel fs' s).1 = .err e := by
  unfold ImgFs.new at hn ⊢
  cases hv : readVolume bad with
  | ok v =>
    rw [hv] at hn
    cases hn
    rw [soe_ok (fails_readVolume h) hv]
    refine ⟨_, rfl, fun buf base faults wf fuel s => ?_⟩
    exact failsM_repackImage (fails_ioCopier hr buf base) faults wf fuel ⟨good, v, Trie.empty⟩ h s
  | err e => rw [hv] at hn; cases hn
  | panic => rw [hv] at hn; cases hn
  | hang => rw [hv] at hn; cases hn

/-- C122, the result: when the reads that succeed are those of a file with an image in it, and repacking it reports success,
then the new image holds exactly what the image in the file holds. -/
theorem C122_repack_holds {img : Bytes} {base : Nat} {bad : Dev} (h : FailsMore bad (offsetDev (fileDev img) base))
    {badRead goodRead : ReadAt} (hr : ∀ pos n, SameOrError (badRead pos n) (goodRead pos n)) (hg : ReadsFile img goodRead)
    {fs' : ImgFs} (hn : ImgFs.new bad = .ok (some fs')) {buf : Nat} (hb : 0 < buf) {faults : Faults} {wf fuel : Nat}
    {content : Path → Bytes} (hcont : ImgContent (offsetDev (fileDev img) base) wf fs'.vol.root content)
    {img0 : Bytes} {s' : PackState ImgFile}
    (hok : repackImage (ioCopier badRead buf base) faults wf fuel fs' ⟨⟨img0, []⟩, []⟩ = (.ok (), s')) :
    HoldsTree (fileDev s'.dev.img) (imgReadDir (offsetDev (fileDev img) base) wf fs'.vol.root) content := by
  obtain ⟨fs, n1, n2⟩ := C122_repack_file h hr hn
  have hv : fs.vol = fs'.vol := by
    obtain ⟨_, _, a⟩ := new_spec n1
    obtain ⟨_, _, b⟩ := new_spec hn
    have := soe_ok (fails_readVolume h) b
    rw [a] at this
    exact Res.ok.inj this
  rcases n2 buf base faults wf fuel ⟨⟨img0, []⟩, []⟩ with e | ⟨e, he⟩
  · rw [hok] at e
    rw [← hv] at hcont ⊢
    exact C44_repack_preserves n1 (ioCopier_copies hg hb base) hcont e.symm
  · rw [hok] at he
    cases he

/-- C122, compressing an image: when reads of the source image fail, opening it fails, or preparing it fails, or preparing it
gives the same sectors; and encoding them then writes the same files as without the failures, or it reports an error. -/
theorem C122_compress {bad good : Dev} (h : FailsMore bad good) {fs' fs1' : ImgFs} (hn : ImgFs.new bad = .ok (some fs'))
    {wf fuel : Nat} {s s1 : PackState SecMap} (hr : repackLinear (defaultCopier bad) wf fuel fs' s = (.ok fs1', s1)) :
    ∃ fs fs1, ImgFs.new good = .ok (some fs) ∧ repackLinear (defaultCopier good) wf fuel fs s = (.ok fs1, s1) ∧
      ∀ (host : Host) (c : Ciso) (image : Str) (n : Nat) (files : HostFs),
        encodeLoop host c image (fun _ => imgBufCopy (defaultCopier bad) fs1') s1.dev n [] files =
          encodeLoop host c image (fun _ => imgBufCopy (defaultCopier good) fs1) s1.dev n [] files ∨
        ∃ e, (encodeLoop host c image (fun _ => imgBufCopy (defaultCopier bad) fs1') s1.dev n [] files).1 = .err e := by
  unfold ImgFs.new at hn ⊢
  cases hv : readVolume bad with
  | ok v =>
    rw [hv] at hn
    cases hn
    rw [soe_ok (fails_readVolume h) hv]
    rcases failsM_repackLinear (c' := defaultCopier bad) (c := defaultCopier good) wf fuel ⟨good, v, Trie.empty⟩ h s
      with e | ⟨e, he⟩
    · have e' : (repackLinear (defaultCopier good) wf fuel ⟨good, v, Trie.empty⟩ >>= fun x => pure { x with dev := bad }) s =
          (.ok fs1', s1) := e.symm.trans hr
      cases hg : repackLinear (defaultCopier good) wf fuel ⟨good, v, Trie.empty⟩ s with
      | mk res s2 =>
        have e2 : PM.bind (repackLinear (defaultCopier good) wf fuel ⟨good, v, Trie.empty⟩)
          (fun x => PM.pure { x with dev := bad }) s = (.ok fs1', s1) := e'
        unfold PM.bind at e2
        rw [hg] at e2
        cases res with
        | ok fs1 =>
          cases e2
          exact ⟨_, fs1, rfl, hg, fun host c image n files => fails_encodeLoop host c image
            (fun _ p dest i o n => fails_imgBufCopy (fails_defaultCopier h) fs1 bad p dest i o n) _ n [] files⟩
        | err e => cases e2
        | panic => cases e2
        | hang => cases e2
    · have : (repackLinear (defaultCopier bad) wf fuel ⟨bad, v, Trie.empty⟩ s).1 = .err e := he
      rw [hr] at this
      cases this
  | err e => rw [hv] at hn; cases hn
  | panic => rw [hv] at hn; cases hn
  | hang => rw [hv] at hn; cases hn

/-! ### Cases -/

/-- The sample with a file that cannot be read. -/
def badSample : SourceFs :=
  { sampleFs' with copy := fun p off n => if p = [['A'], ['c']] then ([], .err .io) else sampleFs'.copy p off n }

/-- Packing the sample succeeds, and when the file cannot be read the source is one that `C122_pack` is about. -/
example : SourceFails badSample sampleFs' ∧ ∃ s', createImage (fileEnv sampleFs' (fun _ => none)) 2 ⟨⟨[], []⟩, []⟩ = (.ok (), s') := by
  refine ⟨⟨fun _ => soe_refl _, rfl, fun p off n => ?_⟩, sample_packs []⟩
  show (if p = [['A'], ['c']] then ([], .err .io) else sampleFs'.copy p off n) = _ ∨
    ∃ e, (if p = [['A'], ['c']] then (([], .err .io) : List Bytes × Res Nat) else sampleFs'.copy p off n).2 = .err e
  split
  · exact .inr ⟨_, rfl⟩
  · exact .inl rfl

/-- The image of the sample is the beginning of a longer file.  It is opened, and preparing it for compression
succeeds. -/
example (more : Bytes) : ∃ img fs, FailsMore (fileDev img) (fileDev (img ++ more)) ∧ ImgFs.new (fileDev img) = .ok (some fs) ∧
    ∃ fs' s, repackLinear (defaultCopier (fileDev img)) 3 2 fs ⟨[], []⟩ = (.ok fs', s) := by
  obtain ⟨s1, h1⟩ := sample_packs []
  obtain ⟨fs, n1, _, _, fs', m, log, hr⟩ := sample_small h1
  refine ⟨s1.dev.img, fs, ?_, n1, fs', _, hr⟩
  have := fails_take (s1.dev.img ++ more) s1.dev.img.length
  rw [List.take_left'] at this
  · exact this
  · rfl

/-- The reads of a file that deliver up to three bytes at a time. -/
def threeRead (img : Bytes) : ReadAt := fun pos n => .ok (slice img pos (min n 3))

theorem threeRead_reads (img : Bytes) : ReadsFile img (threeRead img) := fun pos n hn =>
  ⟨min n 3, by omega, rfl, fun _ => by omega⟩

/-- The image of the sample, read three bytes at a time, repacks, also when another file that contains it could be read
further: `C122_repack_file` and `C122_repack_holds` apply. -/
example (more : Bytes) : ∃ img fs, FailsMore (fileDev img) (fileDev (img ++ more)) ∧ ImgFs.new (fileDev img) = .ok (some fs) ∧
    ∃ s, repackImage (ioCopier (threeRead img) 8192 0) (fun _ => none) 3 2 fs ⟨⟨[], []⟩, []⟩ = (.ok (), s) := by
  obtain ⟨s1, h1⟩ := sample_packs []
  obtain ⟨fs, n1, n2⟩ := C44_repack_succeeds_partial sample'_bounded sample'_faithful h1 sample_tree sample_fits
    sample_storable sample_few sample_latin1
  have hk := n2 (ioCopier (threeRead s1.dev.img) 8192 0) 3 2 ⟨⟨[], []⟩, []⟩
    (ioCopier_works (threeRead_reads _) (by decide) _ _) sample_scanFuel (by decide)
  rcases hr : repackImage (ioCopier (threeRead s1.dev.img) 8192 0) (fun _ => none) 3 2 fs ⟨⟨[], []⟩, []⟩ with ⟨r, s'⟩
  rw [hr] at hk
  simp only at hk
  subst hk
  refine ⟨s1.dev.img, fs, ?_, n1, s', hr⟩
  have := fails_take (s1.dev.img ++ more) s1.dev.img.length
  rw [List.take_left'] at this
  · exact this
  · rfl

end Xdvdfs.Props
