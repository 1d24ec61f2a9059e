import Verif.Props.Injective
import Verif.Props.StdFs

/-!
# Two directories with the same image hold the same (C142)
-/

namespace Xdvdfs.Props
open Xdvdfs Spec

/-- C142, `pack` of two directories, possibly on two hosts: if the two output files are the same, byte for byte, then the
two directories hold the same: the same subdirectories, the same files with the same bytes. -/
theorem C142_same_directory (t t' : Tool) {r r' : DirReader} {faults faults' : Faults} {cwd cwd' : HostPath}
    {fs st fs' st' : HostFs} {src src' : HostPath} {out out' : HostPath} {img : Bytes} (hr : ReadsHost r fs)
    (hr' : ReadsHost r' fs') (hw : WellFormedHost fs) (hw' : WellFormedHost fs') (hn : ProperNames fs) (hn' : ProperNames fs')
    (hdir : fs src = some .dir) (hdir' : fs' src' = some .dir)
    (h : (cmdPack t (stdFs r) faults cwd fs src (some out)).2 = .ok st) (hc : DirClosesCleanly t r faults fs src)
    (h' : (cmdPack t' (stdFs r') faults' cwd' fs' src' (some out')).2 = .ok st')
    (hc' : DirClosesCleanly t' r' faults' fs' src') (hi : IsFile st out img) (hi' : IsFile st' out' img) :
    SameBelow fs src fs' src' := by
  have key : ∀ (t : Tool) {r : DirReader} {faults : Faults} {cwd : HostPath} {fs st : HostFs} {src out : HostPath},
      ReadsHost r fs → WellFormedHost fs → ProperNames fs → fs src = some .dir →
      (cmdPack t (stdFs r) faults cwd fs src (some out)).2 = .ok st → DirClosesCleanly t r faults fs src →
      IsFile st out img → ∃ n st'', (∀ fuel, n < fuel →
        cmdUnpack sampleHost img false ['o', 'u', 't'] fuel sampleHostFs = (.ok (), st'')) ∧
        SameBelow st'' (Spec.placeOf sampleHost ['o', 'u', 't']) fs src := by
    intro t r faults cwd fs st src out hr hw hn hdir h hc hi
    obtain ⟨out', b, h1, _, h2, h3, h4⟩ := cmdPack_dir_ok hdir h
    obtain rfl := h1 out rfl
    have hbuf : b.buf = [] := by unfold DirClosesCleanly at hc; rw [h2] at hc; exact hc
    obtain ⟨⟨s', g1, g2⟩, _, _⟩ := C63_complete_partial h2 hbuf
    have hb := std_bounded (fs := fs) (root := src) hr.2.1
    have hf := std_faithful (fs := fs) (root := src) hr.2.1
    obtain ⟨M, Loc, l0, hP⟩ := pack_packed hb hf g1
    have hnames : ∀ p e, EntryIn (stdFs r fs src).readDir p e → HostName e.name := by
      intro p e he
      refine hn (src ++ p) e.name ?_
      rw [List.append_assoc]
      rcases std_entry_host he with ⟨_, h⟩ | ⟨_, d, h, _⟩ <;> rw [h] <;> nofun
    obtain ⟨n, st', k1, k2, k3⟩ := C45_unpack_restores hb hf g1 hnames sampleHost (fun _ => rfl) ['o', 'u', 't'] sampleHostFs
      sample_fresh false
    rw [g2] at k1
    have : b.img = img := by
      unfold IsFile at hi
      rw [h3] at hi
      exact HostNode.file.inj (Option.some.inj hi)
    rw [this] at k1
    exact ⟨n, st', k1, treeAt_same hr hw hP.listable k2⟩
  obtain ⟨n, u, k1, k2⟩ := key t hr hw hn hdir h hc hi
  obtain ⟨n', u', k1', k2'⟩ := key t' hr' hw' hn' hdir' h' hc' hi'
  have e := (k1 (max n n' + 1) (by omega)).symm.trans (k1' (max n n' + 1) (by omega))
  simp only [Prod.mk.injEq, true_and] at e
  subst e
  intro p hp
  exact (k2 p hp).symm.trans (k2' p hp)

/-- The hypotheses hold: `/s` packs to `/w/x` and to `/w/y`, with the same bytes. -/
example : ∃ st st' img,
    (cmdPack sampleTool (stdFs treeReader) (fun _ => none) [['w']] treeHost [['s']] (some [['w'], ['x']])).2 = .ok st ∧
    (cmdPack sampleTool (stdFs treeReader) (fun _ => none) [] treeHost [['s']] (some [['w'], ['y']])).2 = .ok st' ∧
    IsFile st [['w'], ['x']] img ∧ IsFile st' [['w'], ['y']] img ∧ SameBelow treeHost [['s']] treeHost [['s']] := by
  obtain ⟨b, h1, h2⟩ := tree_packs (cliPolicy sampleTool.early)
  obtain ⟨st, c1, c2, _⟩ := cmdPack_succeeds (t := sampleTool) (cwd := [['w']]) (out := [['w'], ['x']])
    (by decide) (by decide) (by decide) (by decide) h1
  obtain ⟨st', c1', c2', _⟩ := cmdPack_succeeds (t := sampleTool) (cwd := []) (out := [['w'], ['y']])
    (by decide) (by decide) (by decide) (by decide) h1
  have hclose : DirClosesCleanly sampleTool treeReader (fun _ => none) treeHost [['s']] := by
    unfold DirClosesCleanly
    have h1' : packFile (stdFs treeReader treeHost [['s']]) (cliPolicy sampleTool.early) (fun _ => none) sampleTool.fuel =
      (.ok (), b) := h1
    rw [h1']; exact h2
  exact ⟨st, st', b.img, c1, c1', c2, c2', C142_same_directory sampleTool sampleTool tree_reads tree_reads tree_wellFormed
    tree_wellFormed tree_properNames tree_properNames (by decide) (by decide) c1 hclose c1' hclose c2 c2'⟩

end Xdvdfs.Props
