import Verif.Props.SameImage

/-!
# C134, exactly: when repacking an image gives the same image
-/

namespace Xdvdfs.Props

open TabWriter Spec

namespace RepackSame

theorem listedAlike_self {rd : ReadDir} (h : ∀ p, DirOf rd p → ∃ l, rd p = .ok l) : ListedAlike rd rd := by
  intro p hp
  obtain ⟨l, hl⟩ := h p hp
  exact ⟨l, l, hl, hl, rfl⟩

end RepackSame

/-- C134, repacking, exactly.  Repacking an image made by `pack`, however large its directories are, gives the same image,
byte for byte, if and only if the new image lists the same names in the same order as the old one in every directory. -/
theorem C134_repack_identical_iff {fs : SourceFs} {content : Path → Bytes} {faults : Faults} {fuel : Nat}
    {s : PackState ImgFile} (hb : Bounded fs) (hf : FaithfulTo fs content)
    (h : createImage (fileEnv fs faults) fuel ⟨⟨[], []⟩, []⟩ = (.ok (), s)) {ifs : ImgFs}
    (hn : ImgFs.new (fileDev s.dev.img) = .ok (some ifs)) {copier : Copier} (hcop : CopiesFrom (fileDev s.dev.img) copier)
    {faults' : Faults} {wf fuel' : Nat} {s' : PackState ImgFile} (hwf : ScanFuel fs.readDir wf)
    (hr : repackImage copier faults' wf fuel' ifs ⟨⟨[], []⟩, []⟩ = (.ok (), s')) :
    ∃ vol', readVolume (fileDev s'.dev.img) = .ok vol' ∧
      (s'.dev.img = s.dev.img ↔
        ListedAlike (imgReadDir (fileDev s.dev.img) wf ifs.vol.root) (imgReadDir (fileDev s'.dev.img) wf vol'.root)) := by
  obtain ⟨M, Loc, l0, D, rootW, rootSize, next, recs, n, P⟩ := pack_packedBy hb hf h
  obtain ⟨_, _, hvol⟩ := new_spec hn
  have hroot : ifs.vol.root = regionOf l0 := by
    rw [P.packed.volume] at hvol
    rw [← Res.ok.inj hvol]
    rfl
  have hcont := P.packed.content_eq hwf
  rw [← hroot] at hcont
  obtain ⟨src, M', Loc', l0', D', rootW', rootSize', next', recs', n', hrd, P'⟩ := repack_packedBy hn hcop hcont hr
  refine ⟨_, P'.packed.volume, ?_⟩
  obtain ⟨hT, _⟩ := packed_listing P.packed hwf
  rw [← hroot, ← hrd] at hT
  have hwf' : ScanFuel src.readDir wf := by
    intro p l hp hl
    obtain ⟨l1, q1⟩ := P.packed.listable p ((hT.dirs p).2 hp)
    obtain ⟨l2, q2, q3⟩ := hT.lists p l1 ((hT.dirs p).2 hp) q1
    rw [hl] at q2
    cases q2
    have e := q3.length_eq
    simp only [List.length_map] at e
    have := hwf p l1 ((hT.dirs p).2 hp) q1
    omega
  constructor
  · intro he
    have hv := P'.packed.volume
    rw [he, hvol] at hv
    rw [he, ← Res.ok.inj hv]
    refine RepackSame.listedAlike_self fun p hp => ?_
    rw [← hrd] at hp ⊢
    exact P'.packed.listable p hp
  · intro hl
    have hdir : ∀ p w, M.get p = some w → DirOf fs.readDir p := fun p w hw =>
      ((tables_ok P.shape.walked P.shape.tables).2.2.2 p).1 (by rw [hw]; rfl)
    have hdir' : ∀ p w, M'.get p = some w → DirOf src.readDir p := fun p w hw =>
      ((tables_ok P'.shape.walked P'.shape.tables).2.2.2 p).1 (by rw [hw]; rfl)
    refine (same_image P P' hT (StoredAs.order
      (fun p w t hw ht => P.packed.stored P.shape.tabs hwf (hdir p w hw) hw ht)
      (fun p w t hw ht => P'.packed.stored P'.shape.tabs hwf' (hdir' p w hw) hw ht) ?_) (fun _ _ _ _ => rfl)).symm
    intro p l l' hp k k'
    obtain ⟨w, hw⟩ := Option.isSome_iff_exists.1 hp
    have hd := (hT.dirs p).1 (hdir p w hw)
    rw [hrd] at hd
    obtain ⟨l1, l2, g1, g2, g3⟩ := hl p hd
    rw [hroot] at g1
    rw [show imgReadDir (fileDev s.dev.img) wf (regionOf l0) p = .ok l from k] at g1
    rw [show imgReadDir (fileDev s'.dev.img) wf (VolDesc.new (regionOf l0')).root p = .ok l' from k'] at g2
    cases g1
    cases g2
    have := congrArg (List.map Prod.fst) g3
    simpa [List.map_map, Function.comp_def] using this

/-- The sample tree meets the hypotheses of `C134_repack_identical_iff`. -/
example : ∃ s1 fs s2, createImage (fileEnv sampleFs' (fun _ => none)) 2 ⟨⟨[], []⟩, []⟩ = (.ok (), s1) ∧
    ImgFs.new (fileDev s1.dev.img) = .ok (some fs) ∧
    repackImage (defaultCopier (fileDev s1.dev.img)) (fun _ => none) 3 2 fs ⟨⟨[], []⟩, []⟩ = (.ok (), s2) ∧
    ∃ vol', readVolume (fileDev s2.dev.img) = .ok vol' ∧
      ListedAlike (imgReadDir (fileDev s1.dev.img) 3 fs.vol.root) (imgReadDir (fileDev s2.dev.img) 3 vol'.root) := by
  obtain ⟨s1, h1⟩ := sample_packs []
  obtain ⟨fs, n1, g2⟩ := C44_repack_succeeds_partial sample'_bounded sample'_faithful h1 sample_tree sample_fits
    sample_storable sample_few sample_latin1
  have hk := g2 (defaultCopier (fileDev s1.dev.img)) 3 2 ⟨⟨[], []⟩, []⟩
    (defaultCopier_works (fileDev_parts _)) sample_scanFuel (by decide)
  rcases hr : repackImage (defaultCopier (fileDev s1.dev.img)) (fun _ => none) 3 2 fs ⟨⟨[], []⟩, []⟩ with ⟨r, s2⟩
  rw [hr] at hk
  simp only at hk
  subst hk
  obtain ⟨vol', k1, k2⟩ := C134_repack_identical_iff sample'_bounded sample'_faithful h1 n1
    (defaultCopier_copies (fileDev_parts _)) sample_scanFuel hr
  refine ⟨s1, fs, s2, h1, n1, hr, vol', k1, k2.1 (C134_repack_identical_partial sample'_bounded sample'_faithful h1 n1
    (defaultCopier_copies (fileDev_parts _)) sample_scanFuel ?_ hr)⟩
  intro p l hp hl
  rcases (sample_dirs p).1 hp with rfl | rfl <;> cases hl <;> decide

end Xdvdfs.Props
