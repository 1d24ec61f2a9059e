import Verif.Proof.Slack

/-! # C140: bytes that belong to nothing do not matter

What becomes of an image when bytes outside of the volume descriptor, the directory tables and the files are
other than `pack` wrote them: the area before the descriptor, the rest of the last sector of a file, and whatever
follows the tree. -/

namespace Xdvdfs.Props

open Spec

/-- Every byte of the volume descriptor and of the places in the first image is the same in the second. -/
def AgreeOn (places : List Place) (img img' : Bytes) : Prop :=
  ∀ i b, (65536 ≤ i ∧ i < 67584) ∨ (∃ x ∈ places, x.first ≤ i ∧ i < x.stop) → img[i]? = some b → img'[i]? = some b

/-- C140: an image holds the tree that was packed, at the same places, whatever the bytes are that are neither in the
volume descriptor nor in the table of a directory nor in a file. -/
theorem C140_slack_ignored {fs : SourceFs} {content : Path → Bytes} {faults : Faults} {fuel : Nat} {img0 : Bytes}
    {s : PackState ImgFile} (hb : Bounded fs) (hf : FaithfulTo fs content)
    (h : createImage (fileEnv fs faults) fuel ⟨⟨img0, []⟩, []⟩ = (.ok (), s)) :
    ∃ places, LaidOut fs.readDir s.dev.img places ∧ ∀ img', AgreeOn places s.dev.img img' →
      HoldsTree (fileDev img') fs.readDir content ∧ LaidOut fs.readDir img' places := by
  obtain ⟨D, M, rootW, rootSize, next, recs, n', hS, hP⟩ := pack_slack hb hf h
  refine ⟨_, (hP s.dev.img (fun _ _ _ h => h)).2.laidOut hS, ?_⟩
  intro img' hi
  obtain ⟨h1, h2⟩ := hP img' hi
  exact ⟨h1, h2.laidOut hS⟩

theorem repacks_same {fs : SourceFs} {content : Path → Bytes} {img1 img2 : Bytes} {M : PathMap TabWriter}
    {D : List (Path × List FileEntry)} {pts : Path → Str} {rootW : TabWriter} {rootSize next : Nat} {recs : List Rec}
    {n' : Nat} (hS : PlanShape fs.readDir pts D M rootW rootSize next recs n' [])
    (p1 : Packed fs content img1 M (fun p l => (p, l) ∈ placedAll rootSize recs) (rootListing rootSize))
    (p2 : Packed fs content img2 M (fun p l => (p, l) ∈ placedAll rootSize recs) (rootListing rootSize))
    {copier1 copier2 : Copier} (hc1 : CopiesFrom (fileDev img1) copier1) (hc2 : CopiesFrom (fileDev img2) copier2)
    {faults1 faults2 : Faults} {wf1 wf2 fuel1 fuel2 : Nat} {s1 s2 : PackState ImgFile} (hw1 : ScanFuel fs.readDir wf1)
    (hw2 : ScanFuel fs.readDir wf2)
    (hr1 : repackImage copier1 faults1 wf1 fuel1
      ⟨fileDev img1, VolDesc.new (regionOf (rootListing rootSize)), Trie.empty⟩ ⟨⟨[], []⟩, []⟩ = (.ok (), s1))
    (hr2 : repackImage copier2 faults2 wf2 fuel2
      ⟨fileDev img2, VolDesc.new (regionOf (rootListing rootSize)), Trie.empty⟩ ⟨⟨[], []⟩, []⟩ = (.ok (), s2)) :
    s1.dev.img = s2.dev.img := by
  obtain ⟨src1, M1, _, _, D1, _, r1, _, recs1, _, hrd1, P1⟩ := repack_packedBy (Packed.new p1) hc1 (p1.content_eq hw1) hr1
  obtain ⟨src2, M2, _, _, D2, _, r2, _, recs2, _, hrd2, P2⟩ := repack_packedBy (Packed.new p2) hc2 (p2.content_eq hw2) hr2
  have hT := (p1.image.sameTree p1.distinct p1.root p1.rootDir hw1 p1.listable).1
  have S1 := P1.shape
  have S2 := P2.shape
  have agree : ∀ x ∈ D1, src1.readDir x.1 = src2.readDir x.1 := by
    intro x hx
    have hd := (S1.walked.mem_iff x.1).1 (List.mem_map_of_mem hx)
    rw [hrd1] at hd
    have := (hT.dirs x.1).2 hd
    rw [hrd1, hrd2]
    exact packed_listed_same hS p1 p2 hw1 hw2 this
  have S1' : PlanShape src2.readDir src1.pathToString D1 M1 _ r1 _ recs1 _ [] :=
    ⟨walked_agree S1.walked agree, S1.tables, S1.head, S1.size, S1.alloc, S1.split, S1.chain⟩
  obtain ⟨e1, e2⟩ := plan_unique S1' S2
  rw [P1.image, P2.image, e1, e2]

/-- C140: repacking gives the same image, byte for byte, whatever those bytes are, and whichever way the files are
copied. -/
theorem C140_repack_drops_slack {fs : SourceFs} {content : Path → Bytes} {faults : Faults} {fuel : Nat} {img0 : Bytes}
    {s : PackState ImgFile} (hb : Bounded fs) (hf : FaithfulTo fs content)
    (h : createImage (fileEnv fs faults) fuel ⟨⟨img0, []⟩, []⟩ = (.ok (), s)) :
    ∃ places, LaidOut fs.readDir s.dev.img places ∧ ∀ img1 img2, AgreeOn places s.dev.img img1 →
      AgreeOn places s.dev.img img2 → ∀ ifs1 ifs2 copier1 copier2 faults1 faults2 wf1 wf2 fuel1 fuel2 s1 s2,
        ImgFs.new (fileDev img1) = .ok (some ifs1) → ImgFs.new (fileDev img2) = .ok (some ifs2) →
        CopiesFrom (fileDev img1) copier1 → CopiesFrom (fileDev img2) copier2 →
        ScanFuel fs.readDir wf1 → ScanFuel fs.readDir wf2 →
        repackImage copier1 faults1 wf1 fuel1 ifs1 ⟨⟨[], []⟩, []⟩ = (.ok (), s1) →
        repackImage copier2 faults2 wf2 fuel2 ifs2 ⟨⟨[], []⟩, []⟩ = (.ok (), s2) → s1.dev.img = s2.dev.img := by
  obtain ⟨D, M, rootW, rootSize, next, recs, n', hS, hP⟩ := pack_slack hb hf h
  refine ⟨_, (hP s.dev.img (fun _ _ _ h => h)).2.laidOut hS, ?_⟩
  intro img1 img2 hi1 hi2 ifs1 ifs2 copier1 copier2 faults1 faults2 wf1 wf2 fuel1 fuel2 s1 s2 hn1 hn2 hc1 hc2 hw1 hw2 hr1 hr2
  have p1 := (hP img1 hi1).2
  have p2 := (hP img2 hi2).2
  rw [(Packed.new p1)] at hn1
  rw [(Packed.new p2)] at hn2
  cases hn1
  cases hn2
  exact repacks_same hS p1 p2 hc1 hc2 hw1 hw2 hr1 hr2

theorem front_byte {img front : Bytes} {n : Nat} (hf : front.length = n) (back : Bytes) {i : Nat} {b : UInt8} (h1 : n ≤ i)
    (h2 : i < img.length) (hb : img[i]? = some b) : (front ++ img.drop n ++ back)[i]? = some b := by
  rw [List.append_assoc, List.getElem?_append_right (by omega), hf,
    List.getElem?_append_left (by rw [List.length_drop]; omega), List.getElem?_drop, ← hb]
  congr 1
  omega

/-- C140: an image that is followed by other data, and one whose first 64 KiB are others, holds the tree. -/
theorem C140_around {fs : SourceFs} {content : Path → Bytes} {faults : Faults} {fuel : Nat} {img0 : Bytes}
    {s : PackState ImgFile} (hb : Bounded fs) (hf : FaithfulTo fs content)
    (h : createImage (fileEnv fs faults) fuel ⟨⟨img0, []⟩, []⟩ = (.ok (), s)) (front back : Bytes)
    (hfront : front.length = 65536) :
    HoldsTree (fileDev (front ++ s.dev.img.drop 65536 ++ back)) fs.readDir content := by
  obtain ⟨D, M, rootW, rootSize, next, recs, n', hS, hP⟩ := pack_slack hb hf h
  refine (hP _ ?_).1
  intro i b hi hbyte
  have hle : 65536 ≤ i := by
    rcases hi with hi | ⟨x, hx, h1, _⟩
    · exact hi.1
    · obtain ⟨⟨p, l⟩, hl, rfl⟩ := List.mem_map.1 hx
      have := (consecutive_le hS.consecutive.1).1 l (List.mem_map_of_mem (f := Prod.snd) hl)
      simp only [Place.first, placeOf] at h1
      omega
  have hlt : i < s.dev.img.length := (List.getElem?_eq_some_iff.1 hbyte).1
  exact front_byte hfront back hle hlt hbyte

/-- C140: what was in the file before an image was packed over it makes no difference to the repacked image. -/
theorem C140_old_contents {fs : SourceFs} {content : Path → Bytes} {faults1 faults2 : Faults} {fuel1 fuel2 : Nat}
    {old1 old2 : Bytes} {s1 s2 : PackState ImgFile} (hb : Bounded fs) (hf : FaithfulTo fs content)
    (h1 : createImage (fileEnv fs faults1) fuel1 ⟨⟨old1, []⟩, []⟩ = (.ok (), s1))
    (h2 : createImage (fileEnv fs faults2) fuel2 ⟨⟨old2, []⟩, []⟩ = (.ok (), s2)) {ifs1 ifs2 : ImgFs}
    (hn1 : ImgFs.new (fileDev s1.dev.img) = .ok (some ifs1)) (hn2 : ImgFs.new (fileDev s2.dev.img) = .ok (some ifs2))
    {copier1 copier2 : Copier} (hc1 : CopiesFrom (fileDev s1.dev.img) copier1)
    (hc2 : CopiesFrom (fileDev s2.dev.img) copier2) {faults3 faults4 : Faults} {wf1 wf2 fuel3 fuel4 : Nat}
    {s3 s4 : PackState ImgFile} (hw1 : ScanFuel fs.readDir wf1) (hw2 : ScanFuel fs.readDir wf2)
    (hr1 : repackImage copier1 faults3 wf1 fuel3 ifs1 ⟨⟨[], []⟩, []⟩ = (.ok (), s3))
    (hr2 : repackImage copier2 faults4 wf2 fuel4 ifs2 ⟨⟨[], []⟩, []⟩ = (.ok (), s4)) : s3.dev.img = s4.dev.img := by
  obtain ⟨D, M, rootW, rootSize, next, recs, n', hS, hP⟩ := pack_slack hb hf h1
  obtain ⟨D', M', rootW', rootSize', next', recs', n'', hS', hP'⟩ := pack_slack hb hf h2
  obtain ⟨e1, rfl⟩ := plan_unique hS hS'
  have p1 := (hP _ (fun _ _ _ h => h)).2
  have p2 := (hP' _ (fun _ _ _ h => h)).2
  have hD := walked_same hS.walked hS'.walked
  subst hD
  have hM := hS.tables
  rw [hS'.tables] at hM
  cases hM
  rw [← placedAll_same e1] at p2
  rw [Packed.new p1] at hn1
  rw [Packed.new p2] at hn2
  cases hn1
  cases hn2
  exact repacks_same hS p1 p2 hc1 hc2 hw1 hw2 hr1 hr2

/-- The sample tree meets the hypotheses; an image of it that is different in every way the theorems allow. -/
example (front back : Bytes) (hf : front.length = 65536) :
    ∃ s, createImage (fileEnv sampleFs' (fun _ => none)) 2 ⟨⟨[7, 7], []⟩, []⟩ = (.ok (), s) ∧
    HoldsTree (fileDev (front ++ s.dev.img.drop 65536 ++ back)) sampleFs'.readDir sampleContent := by
  obtain ⟨s, h⟩ := sample_packs [7, 7]
  exact ⟨s, h, C140_around sample'_bounded sample'_faithful h _ _ hf⟩

theorem sample_repacks {img : Bytes} {M : PathMap TabWriter} {Loc : Path → Listing → Prop} {l0 : Listing}
    (hP : Packed sampleFs' sampleContent img M Loc l0) : ∃ ifs s', ImgFs.new (fileDev img) = .ok (some ifs) ∧
      repackImage (defaultCopier (fileDev img)) (fun _ => none) 3 2 ifs ⟨⟨[], []⟩, []⟩ = (.ok (), s') := by
  obtain ⟨ifs, n1, n2⟩ := Packed.repackable hP sample_tree sample_fits sample_storable sample_few sample_latin1
  obtain ⟨_, g2, g3, tree', t1, t2, t3, t4, t5, t6⟩ := n2 3 sample_scanFuel
  obtain ⟨e1, e2, _⟩ := new_spec n1
  have hcop : CopierWorks (fileDev img) (defaultCopier (fileDev img)) := defaultCopier_works (fileDev_parts _)
  generalize hcp : defaultCopier (fileDev img) = cp at hcop
  rw [← e1] at g2 g3 t1 hcop
  have hk := repack_works e2 hcop g2 g3 t1 t3 t4 t5 t6 (fuel := 2) (by rw [t2]; decide) ⟨⟨[], []⟩, []⟩
  rcases hr : repackImage cp (fun _ => none) 3 2 ifs ⟨⟨[], []⟩, []⟩ with ⟨r, s'⟩
  rw [hr] at hk
  simp only at hk
  subst hk
  exact ⟨ifs, s', n1, hr⟩

/-- `C140_repack_drops_slack` applies to the image of the sample tree and to the same image followed by other data: both
can be repacked. -/
example (back : Bytes) : ∃ s ifs1 ifs2 s1 s2,
    createImage (fileEnv sampleFs' (fun _ => none)) 2 ⟨⟨[], []⟩, []⟩ = (.ok (), s) ∧
    ImgFs.new (fileDev s.dev.img) = .ok (some ifs1) ∧ ImgFs.new (fileDev (s.dev.img ++ back)) = .ok (some ifs2) ∧
    repackImage (defaultCopier (fileDev s.dev.img)) (fun _ => none) 3 2 ifs1 ⟨⟨[], []⟩, []⟩ = (.ok (), s1) ∧
    repackImage (defaultCopier (fileDev (s.dev.img ++ back))) (fun _ => none) 3 2 ifs2 ⟨⟨[], []⟩, []⟩ = (.ok (), s2) ∧
    s1.dev.img = s2.dev.img := by
  obtain ⟨s, h⟩ := sample_packs []
  have agree : ∀ places, AgreeOn places s.dev.img (s.dev.img ++ back) := by
    intro places i b _ hi
    rw [List.getElem?_append_left (List.getElem?_eq_some_iff.1 hi).1]
    exact hi
  obtain ⟨_, _, _, _, _, _, _, _, hP⟩ := pack_slack sample'_bounded sample'_faithful h
  obtain ⟨ifs1, s1, a1, a2⟩ := sample_repacks (hP s.dev.img (fun _ _ _ h => h)).2
  obtain ⟨ifs2, s2, b1, b2⟩ := sample_repacks (hP (s.dev.img ++ back) (agree _)).2
  obtain ⟨places, _, key⟩ := C140_repack_drops_slack sample'_bounded sample'_faithful h
  exact ⟨s, ifs1, ifs2, s1, s2, h, a1, b1, a2, b2, key s.dev.img (s.dev.img ++ back) (fun _ _ _ h => h) (agree _) _ _ _ _ _ _
    _ _ _ _ _ _ a1 b1 (defaultCopier_copies (fileDev_parts _)) (defaultCopier_copies (fileDev_parts _)) sample_scanFuel
    sample_scanFuel a2 b2⟩

/-- `C140_old_contents` applies to the sample tree, packed into an empty file and over two bytes. -/
example : ∃ s1 s2 ifs1 ifs2 s3 s4, createImage (fileEnv sampleFs' (fun _ => none)) 2 ⟨⟨[], []⟩, []⟩ = (.ok (), s1) ∧
    createImage (fileEnv sampleFs' (fun _ => none)) 2 ⟨⟨[7, 7], []⟩, []⟩ = (.ok (), s2) ∧
    ImgFs.new (fileDev s1.dev.img) = .ok (some ifs1) ∧ ImgFs.new (fileDev s2.dev.img) = .ok (some ifs2) ∧
    repackImage (defaultCopier (fileDev s1.dev.img)) (fun _ => none) 3 2 ifs1 ⟨⟨[], []⟩, []⟩ = (.ok (), s3) ∧
    repackImage (defaultCopier (fileDev s2.dev.img)) (fun _ => none) 3 2 ifs2 ⟨⟨[], []⟩, []⟩ = (.ok (), s4) ∧
    s3.dev.img = s4.dev.img := by
  obtain ⟨s1, h1⟩ := sample_packs []
  obtain ⟨s2, h2⟩ := sample_packs [7, 7]
  obtain ⟨_, _, _, _, _, _, _, _, hP1⟩ := pack_slack sample'_bounded sample'_faithful h1
  obtain ⟨_, _, _, _, _, _, _, _, hP2⟩ := pack_slack sample'_bounded sample'_faithful h2
  obtain ⟨ifs1, s3, a1, a2⟩ := sample_repacks (hP1 s1.dev.img (fun _ _ _ h => h)).2
  obtain ⟨ifs2, s4, b1, b2⟩ := sample_repacks (hP2 s2.dev.img (fun _ _ _ h => h)).2
  exact ⟨s1, s2, ifs1, ifs2, s3, s4, h1, h2, a1, b1, a2, b2, C140_old_contents sample'_bounded sample'_faithful h1 h2 a1 b1
    (defaultCopier_copies (fileDev_parts _)) (defaultCopier_copies (fileDev_parts _)) sample_scanFuel sample_scanFuel a2 b2⟩

end Xdvdfs.Props
