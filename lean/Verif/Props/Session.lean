import Verif.Proof.Session
import Verif.Props.CliPaths
import Verif.Props.CliUnpack
import Verif.Props.CompressArgs

/-!
# What survives a history of commands (C146)
-/

namespace Xdvdfs.Props

open Xdvdfs Spec

/-- C146.  After any history of commands, however each of them ended, the host is a file system, and every file and every
directory that no command was told to write is what it was. -/
theorem C146_untouched {c : Ciso} {xs : List (Host × Command)} {fs fs' : HostFs} (hw : WellFormedHost fs)
    (hh : History c xs fs fs') :
    WellFormedHost fs' ∧ ∀ q, fs q ≠ none → (∀ x ∈ xs, ¬ ToldToWrite c x.1 x.2 q) → fs' q = fs q := by
  induction hh with
  | nil => exact ⟨hw, fun _ _ _ => rfl⟩
  | cons hcwd hr _ ih =>
    obtain ⟨h1, h2⟩ := ran_frame ⟨hw, hcwd⟩ hr
    obtain ⟨h3, h4⟩ := ih h1
    refine ⟨h3, fun q hq ht => ?_⟩
    have e := h2 q hq (ht (_, _) List.mem_cons_self)
    rw [h4 q (by rw [e]; exact hq) (fun x hx => ht x (by simp [hx])), e]

/-- C146.  A directory was packed, and `pack` reported success.  Then anything happened: commands were run, in any working
directories, and succeeded, failed or were killed, and other programs changed whatever they liked, but nobody wrote the
output of `pack`.  Unpacking it afterwards, into a fresh place, gives what was in the directory when it was packed. -/
theorem C146_backup {c : Ciso} {h : Host} {t : Tool} {R : HostFs → DirReader} {faults : Faults} {fs st : HostFs}
    {source image : Str} (hw : WellFormedHost fs) (hn : ProperNames fs) (hdir : fs (placeOf h source) = some .dir)
    (hcwd : fs h.cwd = some .dir)
    (hr : ReadsHost (R (fs.set (placeOf h image) (.file []))) (fs.set (placeOf h image) (.file [])))
    (hout : ¬ placeOf h source <+: placeOf h image)
    (hpack : (cmdPackArgs h t (fun fs src => stdFs (R fs) fs src) faults fs source (some image)).2 = .ok st)
    (hclose : FlushedClean t faults (stdFs (R (fs.set (placeOf h image) (.file [])))
      (fs.set (placeOf h image) (.file [])) (placeOf h source)))
    {xs : List (Host × Command)} {fs' : HostFs} (hh : History c xs st fs')
    (htold : ∀ x ∈ xs, ¬ ToldToWrite c x.1 x.2 (placeOf h image))
    {h' : Host} (hfaults : ∀ p, h'.faults p = .none) (hcwd' : fs' h'.cwd = some .dir) {image' dest : Str} {n : HostNode}
    (hst : h'.stat fs' image' = some (placeOf h image, n)) (hfresh : FreshDest h' dest fs')
    (hout' : ¬ placeOf h' dest <+: placeOf h image) (clones : Bool) :
    ∃ m fs'', (∀ fuel, m < fuel → cmdUnpackArgs h' clones fuel fs' image' (some dest) = (.ok (), fs'')) ∧
      SameBelow fs'' (placeOf h' dest) fs (placeOf h source) ∧ ChangesOnlyInside h' dest fs' fs'' := by
  have hwst := (pack_frame ⟨hw, hcwd⟩ (.inr hpack)).1
  unfold cmdPackArgs at hpack
  split at hpack
  · cases hpack
  next src node hs =>
  obtain ⟨_, rfl, e3⟩ := stat_some hs
  simp only at hpack
  obtain ⟨out, b, ho, hpf, rfl⟩ := packPathArg_dir_ok hdir hpack
  obtain ⟨e1, er, e2, _⟩ := packOpenArg_ok ho
  subst e1
  have hw1 : WellFormedHost (fs.set (placeOf h image) (.file [])) :=
    wf_at hw e2 (resolve_parent ⟨hw, hcwd⟩ er e2) (fun q hq => set_other hq)
  have hbuf : b.buf = [] := by unfold FlushedClean at hclose; rw [hpf] at hclose; exact hclose
  have hsame : ∀ s, (fs.set (placeOf h image) (.file [])) (placeOf h source ++ s) = fs (placeOf h source ++ s) :=
    fun s => set_other (fun e => hout ⟨s, e⟩)
  have hnames : ∀ q c, (fs.set (placeOf h image) (.file [])) (placeOf h source ++ q ++ [c]) ≠ none → HostName c := by
    intro q c hq
    rw [List.append_assoc, hsame, ← List.append_assoc] at hq
    exact hn _ c hq
  have himg := packed_imageOf hr hw1 hnames hpf hbuf
  have hslash : ∃ n, ∀ fuel, n < fuel → NoSlashNames b.img fuel := by
    obtain ⟨⟨s', g1, g2⟩, _, _⟩ := C63_complete_partial hpf hbuf
    refine packedFrom_noSlash (S := stdFs (R (fs.set (placeOf h image) (.file []))) (fs.set (placeOf h image) (.file []))
      (placeOf h source)) ⟨⟨_, _, _, s', g1, g2⟩, std_bounded hr.2.1, std_faithful hr.2.1, fun p e he => ?_⟩
    refine hnames p e.name ?_
    rw [List.append_assoc]
    rcases std_entry_host he with ⟨_, k⟩ | ⟨_, d, k, _⟩ <;> rw [k] <;> nofun
  obtain ⟨hw', hkeep⟩ := C146_untouched hwst hh
  have hkept := hkeep (placeOf h image) (by rw [set_same]; nofun) htold
  rw [set_same] at hkept
  have en := (stat_some hst).2.2
  rw [hkept] at en
  cases en
  obtain ⟨m1, hm1⟩ := hslash
  obtain ⟨m2, fs'', k1, k2, k3⟩ := himg h' fs' dest clones hfaults hfresh
  refine ⟨max m1 m2, fs'', fun fuel hf => ?_, fun s hs => by rw [k2 s hs, hsame], k3⟩
  rw [cmdUnpackArgs_eq ⟨hw', hcwd'⟩ hst (hm1 fuel (by omega)) hout']
  exact k1 fuel (by omega)

/-! ## A history -/

theorem cmdPackArgs_dir_ok {h : Host} {t : Tool} {S : HostFs → HostPath → SourceFs} {faults : Faults} {fs fs1 : HostFs}
    {source image : Str} {src out : HostPath} {b : BufFile} (hst : h.stat fs source = some (src, .dir))
    (hd : fs src = some .dir) (ho : packOpenArg h fs src image = .ok (out, fs1))
    (hb : packFile (S fs1 src) (cliPolicy t.early) faults t.fuel = (.ok (), b)) :
    (cmdPackArgs h t S faults fs source (some image)).2 = .ok (fs1.set out (.file b.img)) := by
  unfold cmdPackArgs
  rw [hst]
  simp only
  unfold packPathArg
  rw [hd]
  simp only [ho]
  simp only [hb]

/-- A host with a directory `/s` that holds a file `o`, and an empty directory `/w`. -/
def saveFs : HostFs := fun q =>
  if q = [] ∨ q = [['s']] ∨ q = [['w']] then some .dir
  else if q = [['s'], ['o']] then some (.file [7])
  else none

/-- What exists on `saveFs`, once `/w/i` was created. -/
def saveDom : List HostPath := [[], [['s']], [['w']], [['s'], ['o']], [['w'], ['i']]]

theorem saveFs_some {q : HostPath} (h : saveFs q ≠ none) : q = [] ∨ q = [['s']] ∨ q = [['w']] ∨ q = [['s'], ['o']] := by
  unfold saveFs at h
  split at h
  · next k => rcases k with k | k | k <;> simp [k]
  · split at h
    · next k => simp [k]
    · exact absurd rfl h

theorem saveFs_wf : WellFormedHost saveFs := by
  refine ⟨rfl, fun q c h => ?_⟩
  rcases saveFs_some h with k | k | k | k
  · simp at k
  · have hl := congrArg List.length k
    have : q = [] := by cases q <;> simp_all
    subst this; rfl
  · have : q = [] := by have hl := congrArg List.length k; cases q <;> simp_all
    subst this; rfl
  · have : q = [['s']] := by
      have := congrArg List.dropLast k
      simpa using this
    subst this; rfl

/-- The working directory is `/w`, and nothing is refused. -/
def inW : Host := ⟨[['w']], fun _ => .none⟩

/-- Another program replaces what is in `/s/o`. -/
def spoilt (fs : HostFs) : HostFs := fs.set [['s'], ['o']] (.file [9])

/-- The tool that packs. -/
def saveTool : Tool := ⟨fun _ _ => false, fun b => [b], 9, 1⟩

/-- The host once `/w/i` was created. -/
def saveFs1 : HostFs := saveFs.set [['w'], ['i']] (.file [])

theorem saveFs1_reads : ReadsHost (listReader saveDom saveFs1) saveFs1 := by
  refine listReader_reads (by decide) (fun q hq => ?_)
  by_cases h1 : q = [['w'], ['i']]
  · subst h1; decide
  · rw [show saveFs1 q = saveFs q from set_other h1] at hq
    rcases saveFs_some hq with rfl | rfl | rfl | rfl <;> decide

theorem saveFs_proper : ProperNames saveFs := by
  intro q c h
  unfold HostName
  rcases saveFs_some h with k | k | k | k
  · simp at k
  · have : c = ['s'] := by have hl := congrArg List.getLast? k; simpa using hl
    subst this; decide
  · have : c = ['w'] := by have hl := congrArg List.getLast? k; simpa using hl
    subst this; decide
  · have : c = ['o'] := by have hl := congrArg List.getLast? k; simpa using hl
    subst this; decide

theorem save_ok : FlatOk [(['o'], [7])] :=
  ascii_flatOk (by unfold DistinctNames; decide) (by decide) (by decide) (by decide)

theorem save_root : (stdFs (listReader saveDom saveFs1) saveFs1 [['s']]).readDir [] = (flatFs [(['o'], [7])]).readDir [] := by
  rfl

theorem save_copies (p : Path) (e : FileEntry)
    (he : EntryIn (stdFs (listReader saveDom saveFs1) saveFs1 [['s']]).readDir p e) (hd : e.isDir = false) :
    ∃ k, ((stdFs (listReader saveDom saveFs1) saveFs1 [['s']]).copy (p ++ [e.name]) 0 e.len).2 = .ok k := by
  rcases std_entry_host he with ⟨h, _⟩ | ⟨_, data, h, _⟩
  · rw [hd] at h; cases h
  · refine ⟨((data.drop 0).take e.len).length, ?_⟩
    show (stdCopy _ saveFs1 [['s']] (p ++ [e.name]) 0 e.len).2 = _
    unfold stdCopy
    rw [h]

theorem save_packFile : ∃ b, packFile (stdFs (listReader saveDom saveFs1) saveFs1 [['s']]) (cliPolicy saveTool.early)
    (fun _ => none) saveTool.fuel = (.ok (), b) ∧ b.buf = [] :=
  root_only_packs save_ok save_root save_copies (fuel := saveTool.fuel) (by decide) (cliPolicy saveTool.early)

theorem save_packs : ∃ img, (cmdPackArgs inW saveTool (fun fs src => stdFs (listReader saveDom fs) fs src) (fun _ => none)
      saveFs ['/', 's'] (some ['i'])).2 = .ok (saveFs1.set [['w'], ['i']] (.file img)) ∧
    FlushedClean saveTool (fun _ => none) (stdFs (listReader saveDom saveFs1) saveFs1 [['s']]) := by
  obtain ⟨b, hb, hbuf⟩ := save_packFile
  refine ⟨b.img, cmdPackArgs_dir_ok (src := [['s']]) rfl rfl rfl hb, by unfold FlushedClean; rw [hb]; exact hbuf⟩

/-- `/s` is packed to `/w/i`; another program changes the file in `/s`; another `pack`, to `/w/j`, fails.  What is unpacked
from `/w/i` to `/w/d` then has the old file. -/
example (c : Ciso) : ∃ st fs' fs'', (cmdPackArgs inW saveTool (fun fs src => stdFs (listReader saveDom fs) fs src)
      (fun _ => none) saveFs ['/', 's'] (some ['i'])).2 = .ok st ∧
    History c [(inW, .other (fun q => q = [['s'], ['o']])), (inW, .pack ['/', 'x'] ['j'])] st fs' ∧
    fs' [['s'], ['o']] = some (.file [9]) ∧
    (∃ m, ∀ fuel, m < fuel → cmdUnpackArgs inW true fuel fs' ['i'] (some ['d']) = (.ok (), fs'')) ∧
    fs'' [['w'], ['d'], ['o']] = some (.file [7]) := by
  obtain ⟨img, hpack, hclose⟩ := save_packs
  generalize hst : saveFs1.set [['w'], ['i']] (.file img) = st at hpack
  have hsti : st [['w'], ['i']] = some (.file img) := by rw [← hst, set_same]
  have hst' : ∀ q, q ≠ [['w'], ['i']] → st q = saveFs q := by
    intro q hq
    rw [← hst, set_other hq]
    exact set_other hq
  have hwst : WellFormedHost st := (pack_frame (h := inW) ⟨saveFs_wf, rfl⟩ (.inr hpack)).1
  have hwsp : WellFormedHost (spoilt st) := wf_at (out := [['s'], ['o']]) hwst (by rw [hst' _ (by decide)]; decide)
    (by rw [hst' _ (by decide)]; rfl) (fun q hq => set_other hq)
  have hist : History c [(inW, .other (fun q => q = [['s'], ['o']])), (inW, .pack ['/', 'x'] ['j'])] st (spoilt st) :=
    .cons (hst' [['w']] (by decide))
      (.other (fun q hq => Classical.byContradiction fun hne => hq (set_other hne)) hwsp)
      (.cons ((set_other (by decide)).trans (hst' [['w']] (by decide))) (.nothing _ _) (.nil _))
  have hnone : ∀ q, [['w'], ['d']] <+: q → spoilt st q = none := by
    intro q hq
    have n1 : q ≠ [['s'], ['o']] := by rintro rfl; revert hq; decide
    have n2 : q ≠ [['w'], ['i']] := by rintro rfl; revert hq; decide
    unfold spoilt
    rw [set_other n1, hst' _ n2]
    refine Classical.byContradiction fun hne => ?_
    rcases saveFs_some hne with rfl | rfl | rfl | rfl <;> (revert hq; decide)
  have hw' : spoilt st [['w']] = some .dir := (set_other (by decide)).trans (hst' [['w']] (by decide))
  have hi' : spoilt st [['w'], ['i']] = some (.file img) := (set_other (by decide)).trans hsti
  have ps : placeOf inW ['/', 's'] = [['s']] := rfl
  have pi : placeOf inW ['i'] = [['w'], ['i']] := rfl
  have pd : placeOf inW ['d'] = [['w'], ['d']] := rfl
  have hway : ∀ q, OnTheWay inW ['d'] q → spoilt st q = none ∨ spoilt st q = some .dir := by
    rintro q ⟨k, rfl⟩
    have hc : hostComps ['d'] = [['d']] := by decide
    rw [hc]
    cases k with
    | zero => right; exact hw'
    | succ k => left; simp only [List.take_succ_cons, List.take_nil]; exact hnone _ (by decide)
  have hstat : inW.stat (spoilt st) ['i'] = some (placeOf inW ['i'], .file img) := by
    rw [pi]
    have hp : inW.resolve (spoilt st) ['i'] = .ok [['w'], ['i']] := by
      show hostWalk (spoilt st) [['w']] [['i']] = _
      unfold hostWalk
      simp [hw', hostWalk]
    unfold Host.stat
    rw [hp]
    simp only [hi']
    rfl
  have e1 : saveFs.set (placeOf inW ['i']) (.file []) = saveFs1 := by rw [pi]; rfl
  obtain ⟨m, fs'', k1, k2, _⟩ := C146_backup (c := c) (h := inW) (t := saveTool) (R := listReader saveDom)
    (faults := fun _ => none) (source := ['/', 's']) (image := ['i']) saveFs_wf saveFs_proper rfl rfl
    (by rw [e1]; exact saveFs1_reads) (by decide) hpack (by rw [e1, ps]; exact hclose) hist
    (by
      intro x hx
      simp only [List.mem_cons, List.not_mem_nil, or_false] at hx
      rcases hx with rfl | rfl
      · show ¬ ([['w'], ['i']] : HostPath) = [['s'], ['o']]; decide
      · show ¬ ([['w'], ['i']] : HostPath) = [['w'], ['j']]; decide)
    (h' := inW) (image' := ['i']) (dest := ['d']) (n := .file img) (fun _ => rfl) hw' hstat
    ⟨by decide, by decide, hw', hway, fun q hq _ => hnone q hq⟩ (by decide) true
  have hlast := k2 [['o']] (by simp)
  rw [ps, pd] at hlast
  exact ⟨st, spoilt st, fs'', hpack, hist, set_same _ _ _, ⟨m, k1⟩, hlast⟩

end Xdvdfs.Props
