import Verif.Props.Short
import Verif.Props.Repack

/-!
# C64: what a repack of a truncated image holds
-/

namespace Xdvdfs.Props
open Xdvdfs Spec

/-- The part of a file of an image that is there: of the bytes that the directory entry speaks of, those that lie
before the end of the file holding the image, whose sectors are counted from byte `base`. -/
def Spec.presentPart (content : Bytes) (base : Nat) (d : DirEnt) : Bytes :=
  (content.drop (base + 2048 * d.node.dirent.data.sector.toNat)).take d.node.dirent.data.size.toNat

/-- C64, what happens instead with the copier of the command line tool, for every image, truncated anywhere or not at
all, and however `std::io::copy` cuts the data into pieces: the new image of a successful repack opens, has exactly the
directories and files of the source, and every file in it has the size that the source states.  Reading it gives the
part of the file that is there in the source followed by zeros; or an error, and this only if a part is missing.  So a file that is
complete in the source reads back exactly, whatever was cut off from the others. -/
theorem C64_truncated_result {dev : Dev} {fs : ImgFs} (hn : ImgFs.new dev = .ok (some fs)) {content : Bytes} {base : Nat}
    {split : Bytes → List Bytes} (hsplit : ∀ b, (split b).flatten = b) {faults : Faults} {wf fuel : Nat}
    {s' : PackState ImgFile}
    (h : repackImage (stdIoCopier content base split) faults wf fuel fs ⟨⟨[], []⟩, []⟩ = (.ok (), s')) :
    ∃ vol, readVolume (fileDev s'.dev.img) = .ok vol ∧
      FindsDirs (fileDev s'.dev.img) vol.root (imgReadDir dev wf fs.vol.root) ∧
      FindsNothingElse (fileDev s'.dev.img) vol.root (imgReadDir dev wf fs.vol.root) ∧
      ∀ p ds d q n, DirOf (imgReadDir dev wf fs.vol.root) p → imgDirents dev wf fs.vol.root p = .ok ds → d ∈ ds →
        d.node.dirent.isDirectory = false → SamePath (p ++ [d.nameStr]) q → PlainPath q →
        SearchBudget (imgReadDir dev wf fs.vol.root) n →
        ∃ d', walkPath (fileDev s'.dev.img) vol.root (slashPath q) n = .ok d' ∧ d'.nameStr = d.nameStr ∧
          d'.node.dirent.isDirectory = false ∧ d'.node.dirent.data.size = d.node.dirent.data.size ∧
          (readDataAll (fileDev s'.dev.img) d'.node.dirent = .ok (Spec.presentPart content base d ++
              List.replicate (d.node.dirent.data.size.toNat - (Spec.presentPart content base d).length) 0) ∨
            (Spec.presentPart content base d).length < d.node.dirent.data.size.toNat ∧
              ∃ err, readDataAll (fileDev s'.dev.img) d'.node.dirent = .err err) := by
  obtain ⟨rfl, hc, _⟩ := new_spec hn
  rcases repack_cases hc h with ⟨fs', h1, h2, h3⟩ | ⟨h1, _⟩
  · have hrd : (pureSource wf (stdIoCopier content base split) fs').readDir = imgReadDir fs.dev wf fs.vol.root := by
      simp only [pureSource]; rw [h1.dev, h1.vol]
    have hb : Bounded (pureSource wf (stdIoCopier content base split) fs') :=
      pureSource_bounded (stdIoCopier_copies_offset hsplit)
    obtain ⟨D, M, rootW, rootSize, next, recs, n', hS⟩ := shape_of_success h3
    have hdist := PlanShape.allDistinct (fs := pureSource wf (stdIoCopier content base split) fs') hS
    rw [hrd] at hdist
    obtain ⟨vol, g1, g2, g3, g4⟩ := C141_short_files hb h3
    rw [hrd] at g2 g3 g4
    refine ⟨vol, g1, g2, g3, ?_⟩
    intro p ds d q n hp hds hdm hd hs hq hbud
    have hl : imgReadDir fs.dev wf fs.vol.root p = .ok (ds.map fileEntryOf) := by
      simp only [imgReadDir, hds, Res.ok_bind, Res.pure_eq]
    have he : EntryIn (imgReadDir fs.dev wf fs.vol.root) p (fileEntryOf d) := ⟨hp, _, hl, List.mem_map_of_mem hdm⟩
    obtain ⟨d', k1, k2, k3, k4, _, k5⟩ := g4 p (fileEntryOf d) q n he hd hs hq hbud
    have hget := copy_known h1.inv.1 (h2 p hp) (dirOf_latin1 h2 hp) hds
      (firstNamed_distinct (hdist p _ hp hl) hdm)
    have hdel : delivered (pureSource wf (stdIoCopier content base split) fs') (p ++ [(fileEntryOf d).name])
        (fileEntryOf d).len = Spec.presentPart content base d := by
      simp only [delivered, pureSource, ImgFs.copy, fileEntryOf, hget, Nat.min_self]
      unfold Spec.presentPart
      by_cases hz : d.node.dirent.data.size.toNat = 0
      · rw [if_pos hz, hz]; simp
      · rw [if_neg hz, Region.offset_of_lt (by omega)]
        simp only [stdIoCopier, hsplit, slice, Nat.add_zero]
    have hlen : (fileEntryOf d).len = d.node.dirent.data.size.toNat := rfl
    refine ⟨d', k1, k2, k3, UInt32.toNat_inj.1 (by rw [k4, hlen]), ?_⟩
    unfold filledUp at k5
    rw [hdel, hlen] at k5
    exact k5
  · exact absurd rfl (h1 ())

/-- The hypotheses of `C64_truncated_result` hold for the image of `C64_truncated_source_accepted_false`, the data of
whose only file is missing, cut into pieces of one byte. -/
example : ∃ fs s', ImgFs.new (fileDev truncImage) = .ok (some fs) ∧
    repackImage (stdIoCopier truncImage 0 (fun b => b.map (fun x => [x]))) (fun _ => none) 2 1 fs ⟨⟨[], []⟩, []⟩ = (.ok (), s') ∧
    (∀ b : Bytes, (b.map (fun x => [x])).flatten = b) := by
  obtain ⟨fs, h1, _, _, h4⟩ := C64_truncated_source_accepted_false
  have := h4 (fun b => b.map (fun x => [x])) ⟨⟨[], []⟩, []⟩
  refine ⟨fs, _, h1, Prod.ext this rfl, ?_⟩
  intro b
  induction b with
  | nil => rfl
  | cons x xs ih => simp [ih]

end Xdvdfs.Props
