import Verif.Props.SameImage
import Verif.Props.RepackSame

/-!
# C79, exactly: when packing a directory twice gives the same image
-/

namespace Xdvdfs.Props

open TabWriter Spec

/-- C79, exactly.  Two packs of the same directory give the same image, byte for byte, if and only if both images list the
same names in the same order in every directory.  So the order of the entries is the only thing in which they can differ,
whatever the buffers, the working directories, the sizes that the host reports for directories and the parts in which
it delivers the files. -/
theorem C79_identical_iff (t t' : Tool) {r r' : DirReader} {faults faults' : Faults}
    {cwd cwd' : HostPath} {fs st st' : HostFs} {src : HostPath} {dst dst' : Option HostPath} (hr : ReadsHost r fs)
    (hr' : ReadsHost r' fs) (hdir : fs src = some .dir)
    (h : (cmdPack t (stdFs r) faults cwd fs src dst).2 = .ok st) (hc : DirClosesCleanly t r faults fs src)
    (h' : (cmdPack t' (stdFs r') faults' cwd' fs src dst').2 = .ok st') (hc' : DirClosesCleanly t' r' faults' fs src)
    {wf : Nat} (hwf : ScanFuel (stdReadDir r fs src) wf) (hwf' : ScanFuel (stdReadDir r' fs src) wf) :
    ∃ out out' img img', (∀ d, dst = some d → out = d) ∧ (∀ d, dst' = some d → out' = d) ∧ IsFile st out img ∧
      IsFile st' out' img' ∧
      ∃ vol vol', readVolume (fileDev img) = .ok vol ∧ readVolume (fileDev img') = .ok vol' ∧
        (img = img' ↔
          ListedAlike (imgReadDir (fileDev img) wf vol.root) (imgReadDir (fileDev img') wf vol'.root)) := by
  obtain ⟨out, b, o1, _, h2, h3, _⟩ := cmdPack_dir_ok hdir h
  obtain ⟨out', b', o1', _, h2', h3', _⟩ := cmdPack_dir_ok hdir h'
  have hbuf : b.buf = [] := by unfold DirClosesCleanly at hc; rw [h2] at hc; exact hc
  have hbuf' : b'.buf = [] := by unfold DirClosesCleanly at hc'; rw [h2'] at hc'; exact hc'
  obtain ⟨⟨s, g1, g2⟩, _, _⟩ := C63_complete_partial h2 hbuf
  obtain ⟨⟨s', g1', g2'⟩, _, _⟩ := C63_complete_partial h2' hbuf'
  have hb := std_bounded (fs := fs) (root := src) hr.2.1
  have hf := std_faithful (fs := fs) (root := src) hr.2.1
  have hb' := std_bounded (fs := fs) (root := src) hr'.2.1
  have hf' := std_faithful (fs := fs) (root := src) hr'.2.1
  obtain ⟨M, Loc, l0, hP⟩ := pack_packed hb hf g1
  obtain ⟨_, _, _, hP'⟩ := pack_packed hb' hf' g1'
  refine ⟨out, out', b.img, b'.img, o1, o1', h3, h3', ?_⟩
  rw [← g2, ← g2']
  refine ⟨_, _, hP.volume, hP'.volume, ?_, fun hl => ?_⟩
  · intro he
    have hv := hP'.volume
    rw [← he, hP.volume] at hv
    rw [← he, ← Res.ok.inj hv]
    refine RepackSame.listedAlike_self fun p hp => ?_
    obtain ⟨hT, _⟩ := packed_listing hP hwf
    obtain ⟨l, hl⟩ := hP.listable p ((hT.dirs p).2 hp)
    obtain ⟨l', k, _⟩ := hT.lists p l ((hT.dirs p).2 hp) hl
    exact ⟨l', k⟩
  · exact C134_determined hb hf hb' hf' g1 g1' hP.volume hP'.volume hwf hwf' hl (fun _ _ _ _ => rfl)

/-- Two packs of a directory with two files that the host lists in different orders meet the hypotheses of
`C79_identical_iff`. -/
example : ∃ (t : Tool) (st st' : HostFs) (out : HostPath),
    (cmdPack t (stdFs (pairReader [['a'], ['b']])) (fun _ => none) [] pairHost [['s']] (some out)).2 = .ok st ∧
    (cmdPack t (stdFs (pairReader [['b'], ['a']])) (fun _ => none) [] pairHost [['s']] (some out)).2 = .ok st' ∧
    DirClosesCleanly t (pairReader [['a'], ['b']]) (fun _ => none) pairHost [['s']] ∧
    DirClosesCleanly t (pairReader [['b'], ['a']]) (fun _ => none) pairHost [['s']] ∧
    ScanFuel (stdReadDir (pairReader [['a'], ['b']]) pairHost [['s']]) 3 ∧
    ScanFuel (stdReadDir (pairReader [['b'], ['a']]) pairHost [['s']]) 3 := by
  obtain ⟨t, ht⟩ : ∃ t : Tool, t.fuel = 1 := ⟨⟨fun _ _ => false, fun b => [b], 9, 1⟩, rfl⟩
  have hout : pairHost [['o']] = none := by decide
  have hpar : pairHost ([['o']] : HostPath).dropLast = some .dir := by decide
  have hin : ¬ ([['s']] : HostPath) <+: [['o']] := by decide
  have hscan : ∀ swap, ScanFuel (stdReadDir (pairReader ((pairFiles swap).map Prod.fst)) pairHost [['s']]) 3 := by
    intro swap p l hp hl
    rw [show stdReadDir (pairReader ((pairFiles swap).map Prod.fst)) pairHost [['s']] =
      (flatFs (pairFiles swap)).readDir from pair_readDir swap] at hp hl
    rw [flat_dirs] at hp
    subst hp
    simp only [flatFs, if_true, Res.ok.injEq] at hl
    subst hl
    cases swap <;> decide
  obtain ⟨b, hb, hbb⟩ := pair_packs false (cliPolicy t.early)
  obtain ⟨b', hb', hbb'⟩ := pair_packs true (cliPolicy t.early)
  rw [← ht] at hb hb'
  obtain ⟨st, k1, _⟩ := cmdPack_succeeds (cwd := []) (by decide) hout hpar hin hb
  obtain ⟨st', k1', _⟩ := cmdPack_succeeds (cwd := []) (by decide) hout hpar hin hb'
  refine ⟨t, st, st', [['o']], k1, k1', ?_, ?_, hscan false, hscan true⟩
  · show DirClosesCleanly t (pairReader ((pairFiles false).map Prod.fst)) _ _ _
    unfold DirClosesCleanly
    rw [hb]
    exact hbb
  · show DirClosesCleanly t (pairReader ((pairFiles true).map Prod.fst)) _ _ _
    unfold DirClosesCleanly
    rw [hb']
    exact hbb'

end Xdvdfs.Props
