import Verif.Props.CliUnpack
import Verif.Props.CompressArgs

/-!
# The output of `pack` when none is given (C114), and what extract mode does when an image fails (C115)
-/

namespace Xdvdfs.Props

open Xdvdfs Spec

variable {h : Host} {fs : HostFs} {source name : Str} {src parent : HostPath}

/-! ## C114: the default output -/

theorem cmdPackArgs_default {t : Tool} {read : HostFs → HostPath → SourceFs} {faults : Faults} {n : HostNode} {s : Str}
    (hst : h.stat fs source = some (src, n)) (hd : defaultImageArg h fs src (decide (n = .dir)) = .ok s) :
    cmdPackArgs h t read faults fs source none = cmdPackArgs h t read faults fs source (some s) := by
  unfold cmdPackArgs
  simp only [hst, hd]

/-- The extension is added to the name of a directory. -/
theorem withExtension_dir {ext : Str} (hne : ext ≠ []) : withExtension name ext true = name ++ '.' :: ext := by
  have hstd : ∀ x, x ≠ [] → stdWithExtension name x = (splitExt name).1 ++ '.' :: x := by
    intro x hx
    unfold stdWithExtension
    rw [if_neg hx]
  have hspec := splitExt_spec name
  unfold withExtension
  rw [if_pos rfl]
  cases he : (splitExt name).2 with
  | none => simp only; rw [hstd _ hne, hspec.1 he]
  | some e =>
    simp only
    rw [hstd _ (by simp)]
    conv => rhs; rw [hspec.2 e he]
    simp

/-- The extension of the name of a file is replaced. -/
theorem withExtension_file {ext stem : Str} (hne : ext ≠ []) (hs : HasStem name stem) (hdd : name ≠ ['.', '.']) :
    withExtension name ext false = stem ++ '.' :: ext := by
  unfold withExtension stdWithExtension
  rw [if_neg (by simp), if_neg hne, HasStem.unique (splitExt_stem name hdd) hs]

theorem last_mem {c : Char} {s t : Str} (hs : s.getLast? = some c) (h : s = t) : t.getLast? = some c := h ▸ hs

/-- What the tool compares: the default output exists and is the source. -/
theorem default_is_source {out : Str} (hout : HostName out) (hw : WellFormedHost fs) {n : HostNode}
    (hsrc : fs src = some n) :
    ((h.stat fs out).isSome ∧ absolutePath h fs out = .ok src) ↔ h.cwd ++ [out] = src := by
  have hplain : placeOf h out = h.cwd ++ [out] := by
    unfold placeOf Host.start
    rw [hostComps_plain hout.2.1 hout.1, if_neg (head_of_plain hout.2.1)]
    simp [stepsFrom, hout.2.2.2.1, hout.2.2.2.2]
  constructor
  · rintro ⟨h1, h2⟩
    obtain ⟨⟨p, m⟩, hp⟩ := Option.isSome_iff_exists.1 h1
    unfold absolutePath at h2
    rw [hp] at h2
    simp only [Res.ok.injEq] at h2
    rw [← hplain, ← (stat_some hp).2.1, h2]
  · intro he
    have hcwd : fs h.cwd = some .dir := hw.2 _ out (by rw [he, hsrc]; nofun)
    have hst := stat_append (n := out) (h := h) (fs := fs) (dir := []) (d := h.cwd) ⟨.inl rfl, hcwd, .inl ⟨rfl, rfl⟩⟩ hout
    rw [List.nil_append, he, hsrc] at hst
    unfold absolutePath
    rw [hst]
    exact ⟨rfl, rfl⟩

theorem hostName_ext {stem ext : Str} (hs : stem ≠ []) (h1 : '/' ∉ stem) (h2 : Char.ofNat 0 ∉ stem) (h3 : '/' ∉ ext)
    (h4 : Char.ofNat 0 ∉ ext) (h5 : ext ≠ []) (h6 : ext ≠ ['.']) : HostName (stem ++ '.' :: ext) := by
  have h0 : Char.ofNat 0 ≠ '.' := by decide
  refine ⟨by simp, by simp [h1, h3], by simp [h2, h4, h0], fun he => ?_, fun he => ?_⟩
  · have := congrArg List.length he
    simp only [List.length_append, List.length_cons, List.length_nil] at this
    exact hs (List.length_eq_zero_iff.1 (by omega))
  · have := congrArg List.length he
    simp only [List.length_append, List.length_cons, List.length_nil] at this
    have l1 : stem.length ≠ 0 := fun h => hs (List.length_eq_zero_iff.1 h)
    have l2 : ext.length ≠ 0 := fun h => h5 (List.length_eq_zero_iff.1 h)
    omega

theorem stem_chars {stem : Str} (hs : HasStem name stem) (hname : HostName name) :
    stem ≠ [] ∧ '/' ∉ stem ∧ Char.ofNat 0 ∉ stem := by
  rcases hs with ⟨ext, rfl, _, h⟩ | ⟨rfl, _⟩
  · exact ⟨h, fun hm => hname.2.1 (by simp [hm]), fun hm => hname.2.2.1 (by simp [hm])⟩
  · exact ⟨hname.1, hname.2.1, hname.2.2.1⟩

/-- C114: without an output path, `pack` does what it does with this one: a directory `name` is packed to `name.iso` in
the working directory, an image to its stem with the extension `iso`, and if that is the image itself, to its stem with
`.xiso.iso`. -/
theorem C114_default_output (t : Tool) (read : HostFs → HostPath → SourceFs) (faults : Faults) (hw : WellFormedHost fs)
    (hn : ProperNames fs) {n : HostNode} (hst : h.stat fs source = some (src, n)) (hsrc : src = parent ++ [name]) :
    (n = .dir → cmdPackArgs h t read faults fs source none =
      cmdPackArgs h t read faults fs source (some (name ++ ['.', 'i', 's', 'o']))) ∧
    (∀ b stem, n = .file b → HasStem name stem →
      (src ≠ h.cwd ++ [stem ++ ['.', 'i', 's', 'o']] → cmdPackArgs h t read faults fs source none =
        cmdPackArgs h t read faults fs source (some (stem ++ ['.', 'i', 's', 'o']))) ∧
      (src = h.cwd ++ [stem ++ ['.', 'i', 's', 'o']] → cmdPackArgs h t read faults fs source none =
        cmdPackArgs h t read faults fs source (some (stem ++ ['.', 'x', 'i', 's', 'o', '.', 'i', 's', 'o'])))) := by
  have hnode := (stat_some hst).2.2
  have hname : HostName name := hn parent name (by rw [← hsrc, hnode]; nofun)
  have hlast : src.getLast? = some name := by rw [hsrc]; simp
  constructor
  · rintro rfl
    refine cmdPackArgs_default hst ?_
    unfold defaultImageArg
    rw [hlast]
    simp only [decide_true]
    rw [withExtension_dir (by simp)]
    rw [if_neg]
    rw [default_is_source (hostName_ext hname.1 hname.2.1 hname.2.2.1 (by decide) (by decide) (by decide) (by decide))
      hw hnode, hsrc]
    intro he
    obtain ⟨_, he⟩ := List.append_inj' he rfl
    have := congrArg List.length (List.cons.inj he).1
    simp at this
  · rintro b stem rfl hs
    have hd : decide (HostNode.file b = .dir) = false := decide_eq_false (by nofun)
    obtain ⟨s1, s2, s3⟩ := stem_chars hs hname
    have hcmp := default_is_source (h := h) (out := stem ++ ['.', 'i', 's', 'o'])
      (hostName_ext (ext := ['i', 's', 'o']) s1 s2 s3 (by decide) (by decide) (by decide) (by decide)) hw hnode
    constructor
    · intro hne
      refine cmdPackArgs_default hst ?_
      unfold defaultImageArg
      rw [hlast, hd]
      simp only
      rw [withExtension_file (by simp) hs hname.2.2.2.2, if_neg]
      intro hc
      exact hne (hcmp.1 hc).symm
    · intro he
      refine cmdPackArgs_default hst ?_
      unfold defaultImageArg
      rw [hlast, hd]
      simp only
      rw [withExtension_file (by simp) hs hname.2.2.2.2, if_pos (hcmp.2 he.symm), withExtension_file (by simp) hs hname.2.2.2.2]

/-- C114: the default output is a file in the working directory, and never the source itself. -/
theorem C114_never_input (t : Tool) (read : HostFs → HostPath → SourceFs) (faults : Faults) (hw : WellFormedHost fs)
    (hn : ProperNames fs) {n : HostNode} (hst : h.stat fs source = some (src, n)) (hsrc : src = parent ++ [name]) :
    ∃ out, cmdPackArgs h t read faults fs source none = cmdPackArgs h t read faults fs source (some out) ∧
      src ≠ h.cwd ++ [out] := by
  obtain ⟨h1, h2⟩ := C114_default_output t read faults hw hn hst hsrc
  have hlast : ∀ out, src = h.cwd ++ [out] → name = out := by
    intro out ho
    rw [hsrc] at ho
    simpa using (List.append_inj' ho rfl).2
  cases hnode : n with
  | dir =>
    refine ⟨_, h1 hnode, fun ho => ?_⟩
    have := congrArg List.length (hlast _ ho)
    simp at this
  | file b =>
    have hfs : fs src = some n := (stat_some hst).2.2
    have hname : HostName name := hn parent name (by rw [← hsrc, hfs]; simp)
    have hstem := splitExt_stem name hname.2.2.2.2
    obtain ⟨k1, k2⟩ := h2 b _ hnode hstem
    rcases Classical.em (src = h.cwd ++ [(splitExt name).1 ++ ['.', 'i', 's', 'o']]) with hs | hs
    · refine ⟨_, k2 hs, fun ho => ?_⟩
      have := congrArg List.length ((hlast _ ho).symm.trans (hlast _ hs))
      simp at this
    · exact ⟨_, k1 hs, hs⟩

/-- C114, the root directory: it has no name, so that packing it without an output path fails at once. -/
theorem C114_root (t : Tool) (read : HostFs → HostPath → SourceFs) (faults : Faults) {n : HostNode}
    (hst : h.stat fs source = some ([], n)) : cmdPackArgs h t read faults fs source none = ([], .err .other) := by
  unfold cmdPackArgs
  simp only [hst]
  rfl

/-- A host with an image at `/w/x.iso`. -/
def isoInW (img : Bytes) : HostFs := fun q =>
  if q = [] ∨ q = [['w']] then some .dir
  else if q = [['w'], ['x', '.', 'i', 's', 'o']] then some (.file img)
  else none

theorem isoInW_some {img : Bytes} {q : HostPath} {c : Str} (h : isoInW img (q ++ [c]) ≠ none) :
    (q = [] ∧ c = ['w']) ∨ (q = [['w']] ∧ c = ['x', '.', 'i', 's', 'o']) := by
  unfold isoInW at h
  split at h
  · next hq =>
    rcases hq with hq | hq
    · simp at hq
    · rw [show ([['w']] : HostPath) = [] ++ [['w']] from rfl] at hq
      obtain ⟨rfl, h⟩ := List.append_inj' hq rfl
      exact .inl ⟨rfl, (List.cons.inj h).1⟩
  · split at h
    · next hq =>
      rw [show ([['w'], ['x', '.', 'i', 's', 'o']] : HostPath) = [['w']] ++ [['x', '.', 'i', 's', 'o']] from rfl] at hq
      obtain ⟨rfl, h⟩ := List.append_inj' hq rfl
      exact .inr ⟨rfl, (List.cons.inj h).1⟩
    · exact absurd rfl h

theorem isoInW_proper (img : Bytes) : WellFormedHost (isoInW img) ∧ ProperNames (isoInW img) := by
  refine ⟨⟨rfl, fun q c h => ?_⟩, fun q c h => ?_⟩
  · rcases isoInW_some h with ⟨rfl, _⟩ | ⟨rfl, _⟩ <;> rfl
  · rcases isoInW_some h with ⟨_, rfl⟩ | ⟨_, rfl⟩ <;> (unfold HostName; decide)

/-- The hypotheses of C114 hold for `pack x.iso` where it is and for `pack /w/x.iso` from the root: the output is
`x.xiso.iso` and `x.iso`, which is another file.  They hold for `pack w` too. -/
example (img : Bytes) (t : Tool) (read : HostFs → HostPath → SourceFs) (faults : Faults) :
    (cmdPackArgs ⟨[['w']], fun _ => .none⟩ t read faults (isoInW img) ['x', '.', 'i', 's', 'o'] none =
      cmdPackArgs ⟨[['w']], fun _ => .none⟩ t read faults (isoInW img) ['x', '.', 'i', 's', 'o']
        (some ['x', '.', 'x', 'i', 's', 'o', '.', 'i', 's', 'o'])) ∧
    (cmdPackArgs ⟨[], fun _ => .none⟩ t read faults (isoInW img) ['/', 'w', '/', 'x', '.', 'i', 's', 'o'] none =
      cmdPackArgs ⟨[], fun _ => .none⟩ t read faults (isoInW img) ['/', 'w', '/', 'x', '.', 'i', 's', 'o']
        (some ['x', '.', 'i', 's', 'o'])) ∧
    (cmdPackArgs ⟨[], fun _ => .none⟩ t read faults (isoInW img) ['w'] none =
      cmdPackArgs ⟨[], fun _ => .none⟩ t read faults (isoInW img) ['w'] (some ['w', '.', 'i', 's', 'o'])) := by
  obtain ⟨hw, hn⟩ := isoInW_proper img
  have hs : HasStem ['x', '.', 'i', 's', 'o'] ['x'] := .inl ⟨['i', 's', 'o'], by decide, by decide, by decide⟩
  refine ⟨?_, ?_, ?_⟩
  · exact ((C114_default_output (n := .file img) t read faults hw hn
      (src := [['w'], ['x', '.', 'i', 's', 'o']]) (parent := [['w']]) rfl rfl).2 img ['x'] rfl hs).2 rfl
  · exact ((C114_default_output (n := .file img) t read faults hw hn
      (src := [['w'], ['x', '.', 'i', 's', 'o']]) (parent := [['w']]) rfl rfl).2 img ['x'] rfl hs).1 (by decide)
  · exact (C114_default_output (n := .dir) t read faults hw hn (src := [['w']]) (parent := []) rfl rfl).1 rfl

/-! ## C115: extract mode stops at the first image that fails -/

/-- C115: extract mode unpacks the images in order.  If all those before an image are unpacked and it is not, the run
reports what went wrong with it, and leaves the host as it is then: the images after it are not touched. -/
theorem C115_extract_stops (h : Host) (clones : Bool) (fuel : Nat) (directory : Option Str) (fs fs1 fs2 : HostFs)
    (before after : List Str) (image : Str) {r : Res Unit} (hr : r ≠ .ok ())
    (hb : exisoExtract h clones fuel directory before fs = (.ok (), fs1))
    (hi : cmdUnpackArgs h clones fuel fs1 image directory = (r, fs2)) :
    exisoExtract h clones fuel directory (before ++ image :: after) fs = (r, fs2) := by
  induction before generalizing fs with
  | nil =>
    simp only [exisoExtract, Prod.mk.injEq, true_and] at hb
    subst hb
    simp only [List.nil_append, exisoExtract, hi]
    cases r with
    | ok u => exact absurd rfl hr
    | err e => rfl
    | panic => rfl
    | hang => rfl
  | cons x xs ih =>
    simp only [List.cons_append, exisoExtract] at hb ⊢
    cases hx : cmdUnpackArgs h clones fuel fs x directory with
    | mk rx fx =>
      rw [hx] at hb
      cases rx with
      | ok u => exact ih fx hb
      | err e => cases hb
      | panic => cases hb
      | hang => cases hb

/-- C115: extract mode succeeds exactly if every image is unpacked, each on the host that the images before it left. -/
theorem C115_extract_succeeds (h : Host) (clones : Bool) (fuel : Nat) (directory : Option Str) (fs fs' : HostFs)
    (images : List Str) :
    exisoExtract h clones fuel directory images fs = (.ok (), fs') ↔
      ∃ hosts : List HostFs, hosts.length = images.length ∧ (fs :: hosts).getLast? = some fs' ∧
        ∀ i (hi : i < images.length) a b, (fs :: hosts)[i]? = some a → hosts[i]? = some b →
          cmdUnpackArgs h clones fuel a images[i] directory = (.ok (), b) := by
  induction images generalizing fs with
  | nil =>
    simp only [exisoExtract, Prod.mk.injEq, true_and, List.length_nil]
    constructor
    · rintro rfl
      exact ⟨[], rfl, rfl, fun i hi => absurd hi (by omega)⟩
    · rintro ⟨hosts, hl, hg, _⟩
      rw [List.length_eq_zero_iff.1 hl] at hg
      simpa using hg
  | cons x xs ih =>
    simp only [exisoExtract]
    constructor
    · intro hb
      cases hx : cmdUnpackArgs h clones fuel fs x directory with
      | mk rx fx =>
        rw [hx] at hb
        cases rx with
        | ok u =>
          obtain ⟨hosts, h1, h2, h3⟩ := (ih fx).1 hb
          refine ⟨fx :: hosts, by simp [h1], by rw [← h2]; simp, fun i hi a b ha hb => ?_⟩
          cases i with
          | zero =>
            simp only [List.getElem?_cons_zero, Option.some.injEq] at ha hb
            subst ha hb
            exact hx
          | succ i =>
            simp only [List.getElem?_cons_succ] at ha hb
            exact h3 i (by simpa using hi) a b ha hb
        | err e => cases hb
        | panic => cases hb
        | hang => cases hb
    · rintro ⟨hosts, h1, h2, h3⟩
      cases hosts with
      | nil => simp at h1
      | cons f hosts =>
        have h0 : cmdUnpackArgs h clones fuel fs x directory = (.ok (), f) := h3 0 (by simp) fs f (by simp) (by simp)
        rw [h0]
        refine (ih f).2 ⟨hosts, by simpa using h1, by rw [← h2]; simp, fun i hi a b ha hb => ?_⟩
        exact h3 (i + 1) (by simp; omega) a b (by simpa using ha) (by simpa using hb)

/-- The hypotheses of C115 hold for two images that are unpacked, followed by `..`, which is none. -/
example (clones : Bool) (fuel : Nat) (hf : 2 < fuel) (after : List Str) : ∃ i j st,
    exisoExtract sampleHost clones fuel none ([['/', 'a', '/', 'g', '.', 'i', 's', 'o'],
      ['/', 'b', '/', 'g', '.', 'i', 's', 'o']] ++ ['.', '.'] :: after) (shelved ['g', '.', 'i', 's', 'o'] i j) =
      (.panic, st) := by
  obtain ⟨i, j, _, _, st, hrun, _⟩ := C87_extract_false clones
  exact ⟨i, j, st, C115_extract_stops sampleHost clones fuel none _ st st _ after ['.', '.'] (r := .panic) (by nofun)
    (hrun fuel hf) rfl⟩

end Xdvdfs.Props
