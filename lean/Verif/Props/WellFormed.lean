import Verif.Proof.WellFormed
import Verif.Props.Attributes
import Verif.Props.Relist

/-!
# C138: packed and repacked images are well-formed
-/

namespace Xdvdfs.Props
open Xdvdfs Spec

/-- **C138** (packing).  A successful pack leaves a well-formed image, whatever the source is and whatever the output file was. -/
theorem C138_packed_well_formed {fs : SourceFs} {content : Path → Bytes} (hb : Bounded fs) (hf : FaithfulTo fs content)
    {faults : Faults} {fuel : Nat} {img0 : Bytes} {s' : PackState ImgFile}
    (h : createImage (fileEnv fs faults) fuel ⟨⟨img0, []⟩, []⟩ = (.ok (), s')) : WellFormed s'.dev.img := by
  obtain ⟨M, Loc, l0, hP⟩ := pack_packed hb hf h
  exact packed_wellFormed hP (pack_success hb hf h)

/-- **C138** (repacking).  If the files of an image can be read, a successful repack of it leaves a well-formed image, whatever
the tables of the old one are like. -/
theorem C138_repacked_well_formed {dev : Dev} {fs : ImgFs} (hn : ImgFs.new dev = .ok (some fs)) {copier : Copier}
    (hcop : CopiesFrom dev copier) {wf : Nat} {content : Path → Bytes} (hcont : ImgContent dev wf fs.vol.root content)
    {faults : Faults} {fuel : Nat} {img0 : Bytes} {s' : PackState ImgFile}
    (h : repackImage copier faults wf fuel fs ⟨⟨img0, []⟩, []⟩ = (.ok (), s')) : WellFormed s'.dev.img := by
  obtain ⟨src, M, Loc, l0, hrd, hP⟩ := repack_packed hn hcop hcont h
  have hH := C44_repack_preserves hn hcop hcont h
  rw [← hrd] at hH
  exact packed_wellFormed hP hH

/-- The sample source packs, so its image is well-formed. -/
example (img0 : Bytes) : ∃ s', createImage (fileEnv sampleFs' (fun _ => none)) 2 ⟨⟨img0, []⟩, []⟩ = (.ok (), s') ∧
    WellFormed s'.dev.img := by
  obtain ⟨s', h⟩ := sample_packs img0
  exact ⟨s', h, C138_packed_well_formed sample'_bounded sample'_faithful h⟩

set_option maxRecDepth 20000 in
theorem gap_walked : walkDirentTree (fileDev (sixImage gapTable)) ⟨33, 2048⟩ 4 = .ok (gapListing.map Prod.snd) := by
  rw [sixImage, handDev_eq]; decide +kernel

/-- Not every image is well-formed: the image with the gap in its table, from which repacking loses a file, is not. -/
example : ¬ WellFormed (sixImage gapTable) := by
  rintro ⟨vol, listed, n, h1, _, ⟨hg, _⟩, _⟩
  rw [gap_volume] at h1
  obtain rfl := Res.ok.inj h1
  have hg' : GoodDir (sixImage gapTable) ⟨33, 2048⟩ := hg
  obtain ⟨k, hk⟩ := hg'.alike
  obtain ⟨linked, stored, e1, e2, hp⟩ := hk (max k 4) (by omega)
  have w1 := walkDirentTree_mono (fuel := 4) (by rw [gap_walked]; simp) (max k 4) (by omega)
  rw [gap_walked, e1] at w1
  rw [scanAll_more gap_stored (by omega : 4 ≤ max k 4)] at e2
  have := hp.length_eq
  rw [Res.ok.inj w1, ← Res.ok.inj e2] at this
  exact absurd this (by decide)

end Xdvdfs.Props
