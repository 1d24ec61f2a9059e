import Verif.Proof.Checksum
import Verif.Proof.Md5
import Verif.Props.Unpack

/-!
# Properties of the checksum of an image (C47, C48, C67)
-/

namespace Xdvdfs.Props
open Xdvdfs Spec

/-! ## C47: the checksum depends only on the contents -/

/-- C47: two images whose listings have the same things at the same paths (directories, and files with
the same data) have the same checksum, whatever the hash function and however the two images are laid
out.  Each listing has one entry per path, and the files can be read. -/
theorem C47_checksum_contents {H : Type} (hash : Bytes → H) {a b : Dev} {va vb : VolDesc} {fa fb : Nat}
    {ta tb : List (Str × DirEnt)} (hta : fileTree a va.root fa = .ok ta) (htb : fileTree b vb.root fb = .ok tb)
    (ha : OnePerPath ta) (hb : OnePerPath tb) (ra : Readable a ta) (rb : Readable b tb)
    (hsame : ∀ path c, HasAt a ta path c ↔ HasAt b tb path c) :
    ∃ c, checksum hash a va fa = .ok c ∧ checksum hash b vb fb = .ok c := by
  obtain ⟨L, h1, h2, h3⟩ := checksumInput_eq hta ha ra
  have h4 := checksumInput_of htb hb rb h1 (h2.trans (fedPairs_perm ha hb ra rb hsame))
  exact ⟨hash (L.flatMap (fun x => x.1 ++ x.2)), by simp [checksum, h3], by simp [checksum, h4]⟩

theorem checksum_of_same {a b : Dev} {ra rb : Region} {rd rd' : Path → Res (List FileEntry)}
    {content content' : Path → Bytes} (ha : ListsTree a ra rd content) (hb : ListsTree b rb rd' content')
    (da : AllDistinct rd) (db : AllDistinct rd') (hs : SameSource rd rd' content content')
    (hn : ∀ p e, EntryIn rd p e → '/' ∉ e.name) :
    ∃ n out, ∀ fuel, n < fuel → checksumInput a ra fuel = .ok out ∧ checksumInput b rb fuel = .ok out := by
  have hn' : ∀ p e, EntryIn rd' p e → '/' ∉ e.name := by
    intro p e he
    obtain ⟨e', h1, h2, _⟩ := (hs.1 p e.name e.isDir).2 ⟨e, he, rfl, rfl⟩
    rw [← h2]; exact hn p e' h1
  obtain ⟨n, ta, a1, a2, a3, a4⟩ := ListsTree.hasAt ha da hn
  obtain ⟨m, tb, b1, b2, b3, b4⟩ := ListsTree.hasAt hb db hn'
  have hsame : ∀ path c, HasAt a ta path c ↔ HasAt b tb path c := by
    intro path c
    rw [a4, b4]
    constructor
    · rintro ⟨p, e, he, rfl, rfl⟩
      obtain ⟨e', h1, h2, h3⟩ := (hs.1 p e.name e.isDir).1 ⟨e, he, rfl, rfl⟩
      refine ⟨p, e', h1, by rw [h2], ?_⟩
      rw [h2, h3]
      split
      · rfl
      · next hd => rw [hs.2 p e he (by simpa using hd)]
    · rintro ⟨p, e, he, rfl, rfl⟩
      obtain ⟨e', h1, h2, h3⟩ := (hs.1 p e.name e.isDir).2 ⟨e, he, rfl, rfl⟩
      refine ⟨p, e', h1, by rw [h2], ?_⟩
      rw [h3]
      split
      · rfl
      · next hd =>
        have := hs.2 p e' h1 (by rw [h3]; simpa using hd)
        rw [h2] at this ⊢
        rw [this]
  obtain ⟨L, h1, h2, h3⟩ := checksumInput_eq (a1 (n + 1) (by omega)) a3 a2
  refine ⟨n + m, L.flatMap (fun x => x.1 ++ x.2), fun fuel hf => ⟨?_, ?_⟩⟩
  · exact checksumInput_of (a1 fuel (by omega)) a3 a2 h1 h2
  · exact checksumInput_of (b1 fuel (by omega)) b3 b2 h1 (h2.trans (fedPairs_perm a3 b3 a2 b2 hsame))

/-- C47 for packed images: two sources with the same tree, listed in any order and packed over any
previous contents of the output files, give images with the same checksum, for every hash function.
Names do not contain slashes. -/
theorem C47_checksum_packed {H : Type} (hash : Bytes → H) {src src' : SourceFs} {content content' : Path → Bytes}
    (hb : Bounded src) (hf : FaithfulTo src content) (hb' : Bounded src') (hf' : FaithfulTo src' content')
    {faults faults' : Faults} {fuel fuel' : Nat} {img0 img0' : Bytes} {s s' : PackState ImgFile}
    (h : createImage (fileEnv src faults) fuel ⟨⟨img0, []⟩, []⟩ = (.ok (), s))
    (h' : createImage (fileEnv src' faults') fuel' ⟨⟨img0', []⟩, []⟩ = (.ok (), s'))
    (hs : SameSource src.readDir src'.readDir content content')
    (hn : ∀ p e, EntryIn src.readDir p e → '/' ∉ e.name) :
    ∃ vol vol' n c, readVolume (fileDev s.dev.img) = .ok vol ∧ readVolume (fileDev s'.dev.img) = .ok vol' ∧
      ∀ k, n < k → checksum hash (fileDev s.dev.img) vol k = .ok c ∧
        checksum hash (fileDev s'.dev.img) vol' k = .ok c := by
  obtain ⟨_, _, _, hP⟩ := pack_packed hb hf h
  obtain ⟨_, _, _, hP'⟩ := pack_packed hb' hf' h'
  obtain ⟨vol, v1, _, _, _, v2⟩ := pack_success hb hf h
  obtain ⟨vol', v1', _, _, _, v2'⟩ := pack_success hb' hf' h'
  obtain ⟨n, out, g⟩ := checksum_of_same v2 v2' hP.distinct hP'.distinct hs hn
  refine ⟨vol, vol', n, hash out, v1, v1', fun k hk => ?_⟩
  simp [checksum, (g k hk).1, (g k hk).2]

theorem SameSource.refl (rd : Path → Res (List FileEntry)) (content : Path → Bytes) :
    SameSource rd rd content content := ⟨fun _ _ _ => Iff.rfl, fun _ _ _ _ => rfl⟩

/-- C47 for repacked images: repacking an image that the tool packed does not change its checksum. -/
theorem C47_checksum_repacked {H : Type} (hash : Bytes → H) {src : SourceFs} {content : Path → Bytes}
    (hb : Bounded src) (hf : FaithfulTo src content) {faults : Faults} {fuel : Nat} {img0 : Bytes}
    {s1 : PackState ImgFile}
    (h1 : createImage (fileEnv src faults) fuel ⟨⟨img0, []⟩, []⟩ = (.ok (), s1))
    (hn : ∀ p e, EntryIn src.readDir p e → '/' ∉ e.name) :
    ∃ fs, ImgFs.new (fileDev s1.dev.img) = .ok (some fs) ∧
      ∀ copier faults wf fuel img1 s2, CopiesFrom (fileDev s1.dev.img) copier → ScanFuel src.readDir wf →
        repackImage copier faults wf fuel fs ⟨⟨img1, []⟩, []⟩ = (.ok (), s2) →
        ∃ vol vol' n c, readVolume (fileDev s1.dev.img) = .ok vol ∧ readVolume (fileDev s2.dev.img) = .ok vol' ∧
          ∀ k, n < k → checksum hash (fileDev s1.dev.img) vol k = .ok c ∧
            checksum hash (fileDev s2.dev.img) vol' k = .ok c := by
  obtain ⟨fs, e1, e2⟩ := C44_repack_of_packed hb hf h1
  refine ⟨fs, e1, ?_⟩
  intro copier faults wf fuel img1 s2 hc hwf h2
  obtain ⟨_, _, _, hP⟩ := pack_packed hb hf h1
  obtain ⟨vol, v1, _, _, _, v2⟩ := pack_success hb hf h1
  obtain ⟨vol', v1', _, _, _, v2'⟩ := e2 copier faults wf fuel img1 s2 hc hwf h2
  obtain ⟨n, out, g⟩ := checksum_of_same v2 v2' hP.distinct hP.distinct (SameSource.refl _ _) hn
  refine ⟨vol, vol', n, hash out, v1, v1', fun k hk => ?_⟩
  simp [checksum, (g k hk).1, (g k hk).2]

/-- Two files, listed in either order. -/
def twoFiles : List (Str × Bytes) := [(['a'], [1]), (['b'], [2, 3])]
def twoFilesSwapped : List (Str × Bytes) := [(['b'], [2, 3]), (['a'], [1])]

theorem ascii_flatOk {files : List (Str × Bytes)} (hd : DistinctNames (files.map Prod.fst))
    (hn : ∀ x ∈ files, utf8Len x.1 ≤ 255 ∧ ∀ c ∈ x.1, c.toNat < 0x80) (hs : ∀ x ∈ files, x.2.length < 2 ^ 20)
    (hf : files.length ≤ 800) : FlatOk files :=
  ⟨hd, fun x hx => ⟨(hn x hx).1, fun c hc => ascii_inCp1252 ((hn x hx).2 c hc)⟩, hs, hf⟩

theorem twoFiles_ok : FlatOk twoFiles :=
  ascii_flatOk (by unfold DistinctNames; decide) (by decide) (by decide) (by decide)

theorem twoFilesSwapped_ok : FlatOk twoFilesSwapped :=
  ascii_flatOk (by unfold DistinctNames; decide) (by decide) (by decide) (by decide)

theorem flat_noSlash {files : List (Str × Bytes)} (h : ∀ x ∈ files, '/' ∉ x.1) :
    ∀ p e, EntryIn (flatFs files).readDir p e → '/' ∉ e.name := by
  intro p e he
  obtain ⟨_, x, hx, rfl⟩ := (flat_entries p e).1 he
  exact h x hx

theorem twoFiles_same : SameSource (flatFs twoFiles).readDir (flatFs twoFilesSwapped).readDir
    (flatContent twoFiles) (flatContent twoFilesSwapped) := by
  have hm : ∀ x, x ∈ twoFiles ↔ x ∈ twoFilesSwapped := by
    intro x; simp only [twoFiles, twoFilesSwapped, List.mem_cons, List.not_mem_nil, or_false]; exact or_comm
  refine ⟨?_, ?_⟩
  · intro p n k
    simp only [flat_entries, hm]
  · intro p e he _
    obtain ⟨rfl, x, hx, rfl⟩ := (flat_entries p e).1 he
    rw [List.nil_append, flat_content twoFiles_ok.distinct hx, flat_content twoFilesSwapped_ok.distinct ((hm x).1 hx)]

/-- The hypotheses of C47 hold for the two files packed in both orders. -/
example (img0 img0' : Bytes) : ∃ s s' vol vol' n c,
    createImage (fileEnv (flatFs twoFiles) (fun _ => none)) 1 ⟨⟨img0, []⟩, []⟩ = (.ok (), s) ∧
    createImage (fileEnv (flatFs twoFilesSwapped) (fun _ => none)) 1 ⟨⟨img0', []⟩, []⟩ = (.ok (), s') ∧
    readVolume (fileDev s.dev.img) = .ok vol ∧ readVolume (fileDev s'.dev.img) = .ok vol' ∧
    ∀ k, n < k → checksum id (fileDev s.dev.img) vol k = .ok c ∧ checksum id (fileDev s'.dev.img) vol' k = .ok c := by
  obtain ⟨s, h⟩ := flat_packs twoFiles_ok img0
  obtain ⟨s', h'⟩ := flat_packs twoFilesSwapped_ok img0'
  obtain ⟨vol, vol', n, c, g⟩ := C47_checksum_packed id (flat_bounded _) (flat_faithful twoFiles_ok.distinct)
    (flat_bounded _) (flat_faithful twoFilesSwapped_ok.distinct) h h' twoFiles_same (flat_noSlash (by decide))
  exact ⟨s, s', vol, vol', n, c, h, h', g⟩

/-- And for the sample image and its repacked copy. -/
example (img0 : Bytes) : ∃ s1 fs, createImage (fileEnv sampleFs' (fun _ => none)) 2 ⟨⟨img0, []⟩, []⟩ = (.ok (), s1) ∧
    ImgFs.new (fileDev s1.dev.img) = .ok (some fs) ∧
    ∃ s2, repackImage (defaultCopier (fileDev s1.dev.img)) (fun _ => none) 3 2 fs ⟨⟨[], []⟩, []⟩ = (.ok (), s2) ∧
    ∃ vol vol' n c, readVolume (fileDev s1.dev.img) = .ok vol ∧ readVolume (fileDev s2.dev.img) = .ok vol' ∧
      ∀ k, n < k → checksum id (fileDev s1.dev.img) vol k = .ok c ∧ checksum id (fileDev s2.dev.img) vol' k = .ok c := by
  obtain ⟨s1, h1⟩ := sample_packs img0
  have hn : ∀ p e, EntryIn sampleFs'.readDir p e → '/' ∉ e.name := fun p e he => (sample_hostNames p e he).2.1
  obtain ⟨fs, n1, g1⟩ := C47_checksum_repacked id sample'_bounded sample'_faithful h1 hn
  obtain ⟨fs', n2, g2⟩ := C44_repack_succeeds_partial sample'_bounded sample'_faithful h1 sample_tree sample_fits
    sample_storable sample_few sample_latin1
  rw [n1] at n2; cases n2
  have hk := g2 (defaultCopier (fileDev s1.dev.img)) 3 2 ⟨⟨[], []⟩, []⟩
    (defaultCopier_works (fileDev_parts _)) sample_scanFuel (by decide)
  rcases hr : repackImage (defaultCopier (fileDev s1.dev.img)) (fun _ => none) 3 2 fs ⟨⟨[], []⟩, []⟩ with ⟨r, s2⟩
  rw [hr] at hk
  simp only at hk
  subst hk
  exact ⟨s1, fs, h1, n1, s2, hr, g1 _ _ _ _ _ _ (defaultCopier_copies (fileDev_parts _)) sample_scanFuel hr⟩

/-! ## C48: different contents give different checksum inputs -/

/-- C48 for images of the same shape: if two images have the same paths, kinds and file sizes, and the
bytes fed to the hash are equal, then the images have the same contents.  What is missing from C48 is
that images which differ in paths or sizes feed different bytes: see `C48_inputs_differ_false`. -/
theorem C48_inputs_differ_partial {a b : Dev} {va vb : VolDesc} {fa fb : Nat}
    {ta tb : List (Str × DirEnt)} (hta : fileTree a va.root fa = .ok ta) (htb : fileTree b vb.root fb = .ok tb)
    (ha : OnePerPath ta) (hb : OnePerPath tb) (ra : Readable a ta) (rb : Readable b tb)
    (hshape : ∀ path k, (∃ c, HasAt a ta path c ∧ c.shape = k) ↔ (∃ c, HasAt b tb path c ∧ c.shape = k))
    (heq : checksum id a va fa = checksum id b vb fb) : ∀ path c, HasAt a ta path c ↔ HasAt b tb path c := by
  obtain ⟨La, a1, a2, a3⟩ := checksumInput_eq hta ha ra
  obtain ⟨Lb, b1, b2, b3⟩ := checksumInput_eq htb hb rb
  have he : La.flatMap (fun x => x.1 ++ x.2) = Lb.flatMap (fun x => x.1 ++ x.2) := by
    simpa [checksum, a3, b3] using heq
  have nod : ∀ (d : Dev) (t : List (Str × DirEnt)), OnePerPath t →
      ((fedPairs d t).map (fun x => (x.1, x.2.length))).Nodup := by
    intro d t ht
    exact List.pairwise_map.2 ((List.pairwise_map.1 (fedPairs_nodup d ht)).imp
      (fun hne e => hne (Prod.mk.inj e).1))
  have hperm : ((fedPairs a ta).map (fun x => (x.1, x.2.length))).Perm ((fedPairs b tb).map (fun x => (x.1, x.2.length))) :=
    (List.perm_ext_iff_of_nodup (nod a ta ha) (nod b tb hb)).2 (fun x =>
      ⟨fedPairs_of_shape ra rb (fun p k => (hshape p k).1) x, fedPairs_of_shape rb ra (fun p k => (hshape p k).2) x⟩)
  have hkeys : La.map (fun x => (x.1, x.2.length)) = Lb.map (fun x => (x.1, x.2.length)) := by
    apply keySorted_unique
    · exact List.pairwise_map.2 a1
    · exact List.pairwise_map.2 b1
    · exact (a2.map _).trans (hperm.trans (b2.map _).symm)
  have hL := flatMap_split hkeys he
  subst hL
  have hp : ∀ k v, (k, v) ∈ fedPairs a ta ↔ (k, v) ∈ fedPairs b tb :=
    fun k v => (a2.symm.trans b2).mem_iff
  have one : ∀ {a b : Dev} {ta tb : List (Str × DirEnt)}, OnePerPath tb → Readable a ta → Readable b tb →
      (∀ k v, (k, v) ∈ fedPairs a ta ↔ (k, v) ∈ fedPairs b tb) →
      (∀ path k, (∃ c, HasAt a ta path c ∧ c.shape = k) → (∃ c, HasAt b tb path c ∧ c.shape = k)) →
      ∀ path c, HasAt a ta path c → HasAt b tb path c := by
    intro a b ta tb hb ra rb hp hs path c h
    obtain ⟨c1, h1, h2⟩ := hs path c.shape ⟨c, h, rfl⟩
    have := (hp _ _).1 ((mem_fedPairs ra).2 ⟨path, c, h, rfl, rfl⟩)
    obtain ⟨path', c2, g1, g2, g3⟩ := (mem_fedPairs rb).1 this
    rw [← utf8Bytes_inj g2] at g1
    have := hasAt_unique hb h1 g1
    subst this
    have : c = c1 := by
      cases c <;> cases c1 <;> simp [Content.shape] at h2 <;> simp_all [contentData]
    rw [this]; exact h1
  exact fun path c => ⟨one hb ra rb hp (fun p k => (hshape p k).1) path c,
    one ha rb ra (fun k v => (hp k v).symm) (fun p k => (hshape p k).2) path c⟩

/-- The bytes fed for a packed image of files in the root directory: `L` lists the files in order. -/
theorem flat_checksum {files : List (Str × Bytes)} (hok : FlatOk files) (hn : ∀ x ∈ files, '/' ∉ x.1)
    {img0 : Bytes} {s : PackState ImgFile} {faults : Faults} {fuel : Nat}
    (h : createImage (fileEnv (flatFs files) faults) fuel ⟨⟨img0, []⟩, []⟩ = (.ok (), s))
    (hs : KeySorted (files.map (fun x => (utf8Bytes ('/' :: x.1), x.2)))) :
    ∃ vol n, readVolume (fileDev s.dev.img) = .ok vol ∧ ∀ k, n < k →
      checksum id (fileDev s.dev.img) vol k = .ok (files.flatMap (fun x => utf8Bytes ('/' :: x.1) ++ x.2)) := by
  obtain ⟨_, _, _, hP⟩ := pack_packed (flat_bounded _) (flat_faithful hok.distinct) h
  obtain ⟨vol, v1, _, _, _, v2⟩ := pack_success (flat_bounded _) (flat_faithful hok.distinct) h
  obtain ⟨n, t, a1, a2, a3, a4⟩ := ListsTree.hasAt v2 hP.distinct (flat_noSlash hn)
  refine ⟨vol, n, v1, fun k hk => ?_⟩
  have hp : (files.map (fun x => (utf8Bytes ('/' :: x.1), x.2))).Perm (fedPairs (fileDev s.dev.img) t) := by
    refine (List.perm_ext_iff_of_nodup ?_ ?_).2 ?_
    · unfold KeySorted at hs
      refine List.Pairwise.imp ?_ hs
      intro a b hlt e
      rw [e, cmpBytes_eq.2 rfl] at hlt; cases hlt
    · exact (List.pairwise_map.1 (fedPairs_nodup _ a3)).imp (fun hne e => hne (by rw [e]))
    · rintro ⟨k, v⟩
      rw [mem_fedPairs a2]
      constructor
      · intro hm
        obtain ⟨x, hx, he⟩ := List.mem_map.1 hm
        simp only [Prod.mk.injEq] at he
        obtain ⟨rfl, rfl⟩ := he
        refine ⟨'/' :: x.1, .file x.2, (a4 _ _).2 ⟨[], ⟨x.1, false, x.2.length⟩, (flat_entries _ _).2 ⟨rfl, x, hx, rfl⟩,
          by simp [slashPath], ?_⟩, rfl, rfl⟩
        simp [flat_content hok.distinct hx]
      · rintro ⟨path, c, hc, rfl, rfl⟩
        obtain ⟨p, e, he, rfl, rfl⟩ := (a4 _ _).1 hc
        obtain ⟨rfl, x, hx, rfl⟩ := (flat_entries p e).1 he
        refine List.mem_map.2 ⟨x, hx, ?_⟩
        simp [slashPath, flat_content hok.distinct hx, contentData]
  have := checksumInput_of (a1 k hk) a3 a2 hs hp
  rw [List.flatMap_map] at this
  simp [checksum, this]

/-- An empty file `a` and a file `b` with the content `/b`; and the other way round. -/
def collideA : List (Str × Bytes) := [(['a'], []), (['b'], [0x2f, 0x62])]
def collideB : List (Str × Bytes) := [(['a'], [0x2f, 0x62]), (['b'], [])]

theorem collideA_ok : FlatOk collideA :=
  ascii_flatOk (by unfold DistinctNames; decide) (by decide) (by decide) (by decide)

theorem collideB_ok : FlatOk collideB :=
  ascii_flatOk (by unfold DistinctNames; decide) (by decide) (by decide) (by decide)

/-- C48 is false: two sources with the same two files, whose contents are exchanged, pack to images with
the same checksum, whatever the hash function. -/
theorem C48_inputs_differ_false {H : Type} (hash : Bytes → H) : ∃ s s' vol vol' n c,
    createImage (fileEnv (flatFs collideA) (fun _ => none)) 1 ⟨⟨[], []⟩, []⟩ = (.ok (), s) ∧
    createImage (fileEnv (flatFs collideB) (fun _ => none)) 1 ⟨⟨[], []⟩, []⟩ = (.ok (), s') ∧
    flatContent collideA [['a']] ≠ flatContent collideB [['a']] ∧
    readVolume (fileDev s.dev.img) = .ok vol ∧ readVolume (fileDev s'.dev.img) = .ok vol' ∧
    ∀ k, n < k → checksum hash (fileDev s.dev.img) vol k = .ok c ∧ checksum hash (fileDev s'.dev.img) vol' k = .ok c := by
  obtain ⟨s, h⟩ := flat_packs collideA_ok []
  obtain ⟨s', h'⟩ := flat_packs collideB_ok []
  obtain ⟨vol, n, v1, v2⟩ := flat_checksum collideA_ok (by decide) h (by unfold KeySorted; decide)
  obtain ⟨vol', n', v1', v2'⟩ := flat_checksum collideB_ok (by decide) h' (by unfold KeySorted; decide)
  have e1 : collideA.flatMap (fun x => utf8Bytes ('/' :: x.1) ++ x.2) = [0x2f, 0x61, 0x2f, 0x62, 0x2f, 0x62] := by decide
  have e2 : collideB.flatMap (fun x => utf8Bytes ('/' :: x.1) ++ x.2) = [0x2f, 0x61, 0x2f, 0x62, 0x2f, 0x62] := by decide
  rw [e1] at v2
  rw [e2] at v2'
  have conv : ∀ {d : Dev} {v : VolDesc} {k : Nat} {b : Bytes}, checksum id d v k = .ok b →
      checksum hash d v k = .ok (hash b) := by
    intro d v k b hb
    unfold checksum at hb ⊢
    obtain ⟨i, h1, h2⟩ := Res.bind_eq_ok.1 hb
    rw [h1]
    simp only [id, Res.pure_eq, Res.ok.injEq] at h2
    subst h2; rfl
  refine ⟨s, s', vol, vol', n + n', hash [0x2f, 0x61, 0x2f, 0x62, 0x2f, 0x62], h, h', by decide, v1, v1', fun k hk =>
    ⟨conv (v2 k (by omega)), conv (v2' k (by omega))⟩⟩

/-- The hypotheses of the partial theorem hold, for instance, for an image and itself; the checksum input
of the two files `a` = [1] and `b` = [2, 3] is `/a`, 1, `/b`, 2, 3. -/
example (img0 : Bytes) : ∃ s vol n, createImage (fileEnv (flatFs twoFiles) (fun _ => none)) 1 ⟨⟨img0, []⟩, []⟩ = (.ok (), s) ∧
    readVolume (fileDev s.dev.img) = .ok vol ∧
    (∀ k, n < k → checksum id (fileDev s.dev.img) vol k = .ok [0x2f, 0x61, 1, 0x2f, 0x62, 2, 3]) ∧
    ∃ t, fileTree (fileDev s.dev.img) vol.root (n + 1) = .ok t ∧ OnePerPath t ∧ Readable (fileDev s.dev.img) t ∧
      HasAt (fileDev s.dev.img) t ['/', 'b'] (.file [2, 3]) := by
  obtain ⟨s, h⟩ := flat_packs twoFiles_ok img0
  obtain ⟨vol, n, v1, v2⟩ := flat_checksum twoFiles_ok (by decide) h (by unfold KeySorted; decide)
  obtain ⟨_, _, _, hP⟩ := pack_packed (flat_bounded _) (flat_faithful twoFiles_ok.distinct) h
  obtain ⟨vol', v1', _, _, _, v3⟩ := pack_success (flat_bounded _) (flat_faithful twoFiles_ok.distinct) h
  rw [v1] at v1'; cases v1'
  obtain ⟨m, t, a1, a2, a3, a4⟩ := ListsTree.hasAt v3 hP.distinct (flat_noSlash (by decide))
  refine ⟨s, vol, n + m, h, v1, fun k hk => ?_, t, a1 _ (by omega), a3, a2, ?_⟩
  · rw [v2 k (by omega)]; decide
  · exact (a4 _ _).2 ⟨[], ⟨['b'], false, 2⟩, (flat_entries _ _).2 ⟨rfl, (['b'], [2, 3]), by decide, rfl⟩, rfl, by decide⟩

/-! ## C67: the MD5 listing -/

theorem finite_lengths {rd : Path → Res (List FileEntry)} {Dp : List Path} :
    ∃ n, ∀ p ∈ Dp, ∀ lst, rd p = .ok lst → lst.length < n := by
  induction Dp with
  | nil => exact ⟨0, by simp⟩
  | cons q qs ih =>
    obtain ⟨n, hn⟩ := ih
    cases hq : rd q with
    | ok l =>
      refine ⟨n + l.length + 1, fun p hp lst hl => ?_⟩
      rcases List.mem_cons.1 hp with rfl | hp
      · rw [hq] at hl; cases hl; omega
      · have := hn p hp lst hl; omega
    | err e => exact ⟨n, fun p hp lst hl => (List.mem_cons.1 hp).elim (fun h => by rw [h, hq] at hl; cases hl) (fun h => hn p h lst hl)⟩
    | panic => exact ⟨n, fun p hp lst hl => (List.mem_cons.1 hp).elim (fun h => by rw [h, hq] at hl; cases hl) (fun h => hn p h lst hl)⟩
    | hang => exact ⟨n, fun p hp lst hl => (List.mem_cons.1 hp).elim (fun h => by rw [h, hq] at hl; cases hl) (fun h => hn p h lst hl)⟩

theorem filter_one {α β : Type} [DecidableEq β] {f : α → β} {l : List α} (hn : (l.map f).Nodup) {x : α} (hx : x ∈ l) :
    l.filter (fun y => f y = f x) = [x] := by
  induction l with
  | nil => cases hx
  | cons y ys ih =>
    rw [List.map_cons, List.nodup_cons] at hn
    rcases List.mem_cons.1 hx with rfl | hx
    · rw [List.filter_cons_of_pos (by simp)]
      congr 1
      rw [List.filter_eq_nil_iff]
      intro z hz
      simp only [decide_eq_true_eq]
      intro e
      exact hn.1 (by rw [← e]; exact List.mem_map_of_mem hz)
    · rw [List.filter_cons_of_neg (by
        simp only [decide_eq_true_eq]
        intro e
        exact hn.1 (by rw [e]; exact List.mem_map_of_mem hx))]
      exact ih hn.2 hx

/-- C67: listing the MD5 sums of a packed image succeeds; every file of the source has exactly one line,
with its path and the hash of its content; and every line is for an entry of the source.  (Directories
have lines too, with the hash of their tables.)  Names do not contain slashes. -/
theorem C67_md5_all {H : Type} (hash : Bytes → H) {src : SourceFs} {content : Path → Bytes}
    (hb : Bounded src) (hf : FaithfulTo src content) {faults : Faults} {fuel : Nat} {img0 : Bytes}
    {s : PackState ImgFile} (h : createImage (fileEnv src faults) fuel ⟨⟨img0, []⟩, []⟩ = (.ok (), s))
    (hn : ∀ p e, EntryIn src.readDir p e → '/' ∉ e.name) :
    ∃ vol n lines, readVolume (fileDev s.dev.img) = .ok vol ∧
      (∀ k, n < k → cmdMd5 hash (fileDev s.dev.img) vol none k = (.ok (), lines)) ∧
      (∀ p e, EntryIn src.readDir p e → e.isDir = false →
        lines.filter (fun x => x.2 = slashPath (p ++ [e.name])) =
          [(hash (content (p ++ [e.name])), slashPath (p ++ [e.name]))]) ∧
      ∀ x ∈ lines, ∃ p e, EntryIn src.readDir p e ∧ x.2 = slashPath (p ++ [e.name]) := by
  obtain ⟨M, Loc, l0, hP⟩ := pack_packed hb hf h
  obtain ⟨vol, v1, _, _, _, v2⟩ := pack_success hb hf h
  obtain ⟨n, t, a1, a2, a3, a4⟩ := ListsTree.hasAt v2 hP.distinct hn
  obtain ⟨Dp, _, d2⟩ := hP.finite
  obtain ⟨m, hm⟩ := finite_lengths (rd := src.readDir) (Dp := Dp)
  have hvol : vol = VolDesc.new (regionOf l0) := by
    have := hP.volume
    rw [v1] at this
    simpa using this
  have hread : ∀ x ∈ t, ∃ b, readDataAll (fileDev s.dev.img) x.2.node.dirent = .ok b := by
    intro x hx
    have ht := a1 (n + m + 1) (by omega)
    obtain ⟨p, hp⟩ := hP.image.located (wf := n + m + 1)
      (fun p lst h1 h2 => Nat.lt_of_lt_of_le (hm p ((d2 p).2 h1) lst h2) (by omega)) _ _ _ _
      (by
        intro y hy
        rw [List.mem_singleton] at hy
        subst hy
        exact ⟨[], l0, hP.root, hP.rootDir, by rw [hvol]; rfl⟩) (by simp) ht x hx
    exact hP.image.readable hp
  let read : DirEnt → Bytes := fun d =>
    match readDataAll (fileDev s.dev.img) d.node.dirent with
    | .ok b => b
    | _ => []
  have hr : ∀ x ∈ t, readDataAll (fileDev s.dev.img) x.2.node.dirent = .ok (read x.2) := by
    intro x hx
    obtain ⟨b, hb⟩ := hread x hx
    simp only [read, hb]
  have hl := md5Tree_eq hash (base := []) read t [] hr
  simp only [if_true, List.nil_append] at hl
  refine ⟨vol, n, t.map (fun x => (hash (read x.2), x.1 ++ '/' :: x.2.nameStr)), v1, ?_, ?_, ?_⟩
  · intro k hk
    unfold cmdMd5
    simp only [a1 k hk]
    exact hl
  · intro p e he hd
    obtain ⟨par, d, m1, m2, m3, m4⟩ := (a4 (slashPath (p ++ [e.name])) (.file (content (p ++ [e.name])))).2
      ⟨p, e, he, rfl, by rw [hd]; rfl⟩
    rw [List.filter_map]
    have := filter_one (f := listedPath) a3 m1
    have e1 : listedPath (par, d) = slashPath (p ++ [e.name]) := m2.symm
    rw [e1] at this
    have e2 : ((fun x : H × Str => decide (x.2 = slashPath (p ++ [e.name]))) ∘
        fun x : Str × DirEnt => (hash (read x.2), x.1 ++ '/' :: x.2.nameStr)) =
        fun y => decide (listedPath y = slashPath (p ++ [e.name])) := rfl
    rw [e2, this]
    simp only [List.map_cons, List.map_nil, List.cons.injEq, Prod.mk.injEq, and_true]
    have h1 := hr _ m1
    simp only at h1
    rw [m4] at h1
    simp only [Res.ok.injEq] at h1
    exact ⟨by rw [h1], m2.symm⟩
  · intro x hx
    obtain ⟨y, hy, rfl⟩ := List.mem_map.1 hx
    by_cases hd : y.2.node.dirent.isDirectory = true
    · obtain ⟨p, e, g1, g2, _⟩ := (a4 (listedPath y) .dir).1 ⟨y.1, y.2, hy, rfl, hd⟩
      exact ⟨p, e, g1, g2⟩
    · obtain ⟨p, e, g1, g2, _⟩ := (a4 (listedPath y) (.file (read y.2))).1 ⟨y.1, y.2, hy, rfl, by simpa using hd, hr y hy⟩
      exact ⟨p, e, g1, g2⟩

/-- C67 for one file: asking for the sum of a file, by any spelling of its path, prints one line with the
hash of its content. -/
theorem C67_md5_file {H : Type} (hash : Bytes → H) {src : SourceFs} {content : Path → Bytes}
    (hb : Bounded src) (hf : FaithfulTo src content) {faults : Faults} {fuel : Nat} {img0 : Bytes}
    {s : PackState ImgFile} (h : createImage (fileEnv src faults) fuel ⟨⟨img0, []⟩, []⟩ = (.ok (), s)) :
    ∃ vol, readVolume (fileDev s.dev.img) = .ok vol ∧ ∀ p e q k, EntryIn src.readDir p e → e.isDir = false →
      SamePath (p ++ [e.name]) q → PlainPath q → SearchBudget src.readDir k →
      cmdMd5 hash (fileDev s.dev.img) vol (some (slashPath q)) k =
        (.ok (), [(hash (content (p ++ [e.name])), slashPath q)]) := by
  obtain ⟨vol, v1, v2, _⟩ := pack_success hb hf h
  refine ⟨vol, v1, fun p e q k he hd hs hp hk => ?_⟩
  obtain ⟨d, g1, _, g3, g4⟩ := v2 p e q k he hd hs hp hk
  unfold cmdMd5
  simp only [g1, DiskData.direntTable, g3]
  simp [g4]

/-- The hypotheses of C67 hold for the sample. -/
example (img0 : Bytes) : ∃ s vol n lines, createImage (fileEnv sampleFs' (fun _ => none)) 2 ⟨⟨img0, []⟩, []⟩ = (.ok (), s) ∧
    readVolume (fileDev s.dev.img) = .ok vol ∧
    (∀ k, n < k → cmdMd5 id (fileDev s.dev.img) vol none k = (.ok (), lines)) ∧
    lines.filter (fun x => x.2 = ['/', 'A', '/', 'c']) = [([1, 2, 3], ['/', 'A', '/', 'c'])] := by
  obtain ⟨s, h⟩ := sample_packs img0
  obtain ⟨vol, n, lines, h1, h2, h3, _⟩ := C67_md5_all id sample'_bounded sample'_faithful h
    (fun p e he => (sample_hostNames p e he).2.1)
  exact ⟨s, vol, n, lines, h, h1, h2, h3 [['A']] ⟨['c'], false, 3⟩ ((sample_entries _ _).2 (.inr (.inr ⟨rfl, rfl⟩))) rfl⟩

end Xdvdfs.Props
