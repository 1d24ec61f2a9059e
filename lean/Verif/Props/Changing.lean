import Verif.Props.Short
import Verif.Props.StdFs
import Verif.Props.Fuse

/-!
# C141: packing a directory that changes meanwhile
-/

namespace Xdvdfs.Props
open Xdvdfs Spec

/-- A host directory that other programs change while it is packed: the directory `p` is listed when the host is
`listed p`, the file `p` is copied when it is `copied p`.  The code is that of
`/repo/xdvdfs-core/src/write/fs/stdfs.rs:15-102`. -/
def changingFs (r : Path → DirReader) (listed copied : Path → HostFs) (root : HostPath) : SourceFs where
  readDir := fun p => stdReadDir (r p) (listed p) root p
  pathToString := fun p => (stdFs (r p) (listed p) root).pathToString p
  copy := fun p => stdCopy (r p) (copied p) root p

theorem changing_bounded {r : Path → DirReader} {listed copied : Path → HostFs} {root : HostPath}
    (hs : ∀ p b, ((r p).split b).flatten = b) : Bounded (changingFs r listed copied root) := by
  intro p n
  simp only [changingFs, stdCopy]
  split
  · simp only [hs, List.length_take]; omega
  · simp

/-- C141 for a directory of the host that other programs change in any way while `pack` runs.  If packing succeeds, the
image has the directories and files that were listed.  A file reads back as what was in it when it was copied, cut to the
listed length; if it was shorter than that then, it reads back filled up with zeros, or with an error. -/
theorem C141_changing_directory {r : Path → DirReader} {listed copied : Path → HostFs} {root : HostPath} {faults : Faults}
    {fuel : Nat} {s' : PackState ImgFile} (hs : ∀ p b, ((r p).split b).flatten = b)
    (h : createImage (fileEnv (changingFs r listed copied root) faults) fuel ⟨⟨[], []⟩, []⟩ = (.ok (), s')) :
    ∃ vol, readVolume (fileDev s'.dev.img) = .ok vol ∧
      FindsDirs (fileDev s'.dev.img) vol.root (fun p => stdReadDir (r p) (listed p) root p) ∧
      FindsNothingElse (fileDev s'.dev.img) vol.root (fun p => stdReadDir (r p) (listed p) root p) ∧
      ∀ p e q n, EntryIn (fun p => stdReadDir (r p) (listed p) root p) p e → e.isDir = false →
        SamePath (p ++ [e.name]) q → PlainPath q → SearchBudget (fun p => stdReadDir (r p) (listed p) root p) n →
        ∃ d b, walkPath (fileDev s'.dev.img) vol.root (slashPath q) n = .ok d ∧ d.nameStr = e.name ∧
          d.node.dirent.isDirectory = false ∧ d.node.dirent.data.size.toNat = e.len ∧
          copied (p ++ [e.name]) (root ++ (p ++ [e.name])) = some (.file b) ∧
          (e.len ≤ b.length → readDataAll (fileDev s'.dev.img) d.node.dirent = .ok (b.take e.len)) ∧
          (b.length < e.len →
            readDataAll (fileDev s'.dev.img) d.node.dirent = .ok (b ++ List.replicate (e.len - b.length) 0) ∨
            ∃ err, readDataAll (fileDev s'.dev.img) d.node.dirent = .err err) := by
  obtain ⟨vol, h1, h2, h3, h4⟩ := C141_short_files (changing_bounded hs) h
  refine ⟨vol, h1, h2, h3, ?_⟩
  intro p e q n he hk hsame hp hn
  obtain ⟨d, g1, g2, g3, g4, g0, g5⟩ := h4 p e q n he hk hsame hp hn
  have hcopied : ∃ b, copied (p ++ [e.name]) (root ++ (p ++ [e.name])) = some (.file b) := by
    obtain ⟨k, hk⟩ := g0
    change (stdCopy (r (p ++ [e.name])) (copied (p ++ [e.name])) root (p ++ [e.name]) 0 e.len).2 = .ok k at hk
    unfold stdCopy at hk
    split at hk
    · next b hb => exact ⟨b, hb⟩
    · cases hk
  obtain ⟨b, hbf⟩ := hcopied
  have hdel : delivered (changingFs r listed copied root) (p ++ [e.name]) e.len = b.take e.len := by
    unfold delivered changingFs
    simp only [stdCopy, hbf, hs, List.drop_zero]
  refine ⟨d, b, g1, g2, g3, g4, hbf, ?_, ?_⟩
  · intro hl
    have hfull : (delivered (changingFs r listed copied root) (p ++ [e.name]) e.len).length = e.len := by
      rw [hdel, List.length_take]; omega
    rcases g5 with g5 | ⟨g5, _⟩
    · rw [filledUp_full hfull, hdel] at g5; exact g5
    · omega
  · intro hl
    rcases g5 with g5 | ⟨_, g5⟩
    · left
      rw [filledUp, hdel, List.take_of_length_le (by omega)] at g5
      exact g5
    · exact .inr g5

/-- The directory `/s` is listed as it is in `treeHost`.  Then the file `A/c` loses its last byte and `b.txt` becomes longer,
and both are copied. -/
def laterHost : HostFs := fun q =>
  if q = [['s'], ['A'], ['c']] then some (.file [1, 2])
  else if q = [['s'], ['b', '.', 't', 'x', 't']] then some (.file [4, 5, 6, 7, 8, 9, 10])
  else treeHost q

def laterFs : SourceFs := changingFs (fun _ => treeReader) (fun _ => treeHost) (fun _ => laterHost) [['s']]

theorem later_readDir : laterFs.readDir = sampleFs.readDir := tree_readDir

theorem later_packs : ∃ s', createImage (fileEnv laterFs (fun _ => none)) 2 ⟨⟨[], []⟩, []⟩ = (.ok (), s') := by
  have hw : ∀ p e, EntryIn laterFs.readDir p e → e.isDir = false → ∃ k, (laterFs.copy (p ++ [e.name]) 0 e.len).2 = .ok k := by
    intro p e he hk
    rw [later_readDir] at he
    rcases (sample_entries p e).1 he with ⟨rfl, rfl⟩ | ⟨rfl, rfl⟩ | ⟨rfl, rfl⟩
    · cases hk
    · exact ⟨5, by decide⟩
    · exact ⟨2, by decide⟩
  have := C33_representable_tree_packs_few (fileEnv laterFs (fun _ => none)) (tree := sampleTree)
    (by show Listable laterFs.readDir; rw [later_readDir]; exact sample_listable)
    (by show TreeOf laterFs.readDir _; rw [later_readDir]; exact sample_tree) sample_fits sample_storable sample_few
    (fileEnv_works hw) (fuel := 2) (by decide) ⟨⟨[], []⟩, []⟩
  rcases hc : createImage (fileEnv laterFs (fun _ => none)) 2 ⟨⟨[], []⟩, []⟩ with ⟨r, s'⟩
  rw [hc] at this
  simp only at this
  subst this
  exact ⟨s', rfl⟩

/-- Packing succeeds.  `b.txt` has the first five bytes of what was in it when it was copied; `A/c` reads as its two bytes
and a zero, or not at all. -/
example : ∃ s' vol db dc, createImage (fileEnv laterFs (fun _ => none)) 2 ⟨⟨[], []⟩, []⟩ = (.ok (), s') ∧
    readVolume (fileDev s'.dev.img) = .ok vol ∧
    walkPath (fileDev s'.dev.img) vol.root ['/', 'b', '.', 't', 'x', 't'] 10 = .ok db ∧
    readDataAll (fileDev s'.dev.img) db.node.dirent = .ok [4, 5, 6, 7, 8] ∧
    walkPath (fileDev s'.dev.img) vol.root ['/', 'a', '/', 'C'] 10 = .ok dc ∧
    (readDataAll (fileDev s'.dev.img) dc.node.dirent = .ok [1, 2, 0] ∨
      ∃ err, readDataAll (fileDev s'.dev.img) dc.node.dirent = .err err) := by
  obtain ⟨s', h⟩ := later_packs
  obtain ⟨vol, h1, _, _, h4⟩ := C141_changing_directory (fun _ b => by simp [treeReader]) h
  have hrd : (fun p => stdReadDir treeReader treeHost [['s']] p) = sampleFs.readDir := tree_readDir
  simp only [hrd] at h4
  have hbud : SearchBudget sampleFs.readDir 10 := fun p l hp hl => by
    have := sample_budget p l hp hl
    omega
  obtain ⟨db, b, b1, _, _, _, b5, b6, _⟩ := h4 [] _ [['b', '.', 't', 'x', 't']] 10
    ((sample_entries _ _).2 (.inr (.inl ⟨rfl, rfl⟩))) rfl rfl (by unfold PlainPath; decide) hbud
  obtain ⟨dc, c, c1, _, _, _, c5, _, c7⟩ := h4 [['A']] _ [['a'], ['C']] 10
    ((sample_entries _ _).2 (.inr (.inr ⟨rfl, rfl⟩))) rfl (by unfold SamePath; decide) (by unfold PlainPath; decide) hbud
  have hb : b = [4, 5, 6, 7, 8, 9, 10] := by
    have : laterHost [['s'], ['b', '.', 't', 'x', 't']] = some (.file [4, 5, 6, 7, 8, 9, 10]) := by decide
    exact (HostNode.file.inj (Option.some.inj (this.symm.trans b5))).symm
  have hc : c = [1, 2] := by
    have : laterHost [['s'], ['A'], ['c']] = some (.file [1, 2]) := by decide
    exact (HostNode.file.inj (Option.some.inj (this.symm.trans c5))).symm
  subst hb hc
  exact ⟨s', vol, db, dc, h, h1, b1, b6 (by decide), c1, c7 (by decide)⟩

end Xdvdfs.Props
