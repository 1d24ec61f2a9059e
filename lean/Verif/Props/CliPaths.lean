import Verif.Props.StdFs
import Verif.Props.BuildImage
import Verif.Proof.CliPaths

/-!
# Properties of the command line tool, from its arguments (C74, C85–C88)
-/

namespace Xdvdfs.Props

open Xdvdfs Spec

/-! ## C74: packing never changes its source -/

theorem splitExt_chars {name : Str} {c : Char} : (c ∈ (splitExt name).1 → c ∈ name) ∧
    ∀ e, (splitExt name).2 = some e → c ∈ e → c ∈ name := by
  unfold splitExt
  split
  · exact ⟨id, nofun⟩
  · have hsplit := List.takeWhile_append_dropWhile (p := fun c => decide (c ≠ '.')) (l := name.reverse)
    split
    · exact ⟨id, nofun⟩
    · next d before hd =>
      split
      · exact ⟨id, nofun⟩
      · refine ⟨fun h => ?_, fun e he h => ?_⟩
        · rw [← List.mem_reverse, ← hsplit, hd]
          simp only [List.mem_append, List.mem_cons]
          exact .inr (.inr (List.mem_reverse.1 h))
        · simp only [Option.some.injEq] at he
          rw [← he] at h
          rw [← List.mem_reverse, ← hsplit]
          exact List.mem_append.2 (.inl (List.mem_reverse.1 h))

theorem withExtension_chars {name ext : Str} {isDir : Bool} {c : Char} (h : c ∈ withExtension name ext isDir) :
    c ∈ name ∨ c = '.' ∨ c ∈ ext := by
  have key : ∀ {e : Str}, c ∈ stdWithExtension name e → c ∈ name ∨ c = '.' ∨ c ∈ e := by
    intro e h
    unfold stdWithExtension at h
    split at h
    · exact .inl (splitExt_chars.1 h)
    · simp only [List.mem_append, List.mem_cons] at h
      rcases h with h | h | h
      · exact .inl (splitExt_chars.1 h)
      · exact .inr (.inl h)
      · exact .inr (.inr h)
  unfold withExtension at h
  split at h
  · split at h
    · exact key h
    · next e he =>
      rcases key h with h | h | h
      · exact .inl h
      · exact .inr (.inl h)
      · simp only [List.mem_append, List.mem_cons] at h
        rcases h with h | h | h
        · exact .inl (splitExt_chars.2 e he h)
        · exact .inr (.inl h)
        · exact .inr (.inr h)
  · exact key h

/-- The name that `pack` chooses is a single component. -/
theorem defaultImageArg_name {h : Host} {fs : HostFs} {src : HostPath} {isDir : Bool} {s : Str}
    (hsrc : ∀ c ∈ src, HostName c) (hd : defaultImageArg h fs src isDir = .ok s) :
    hostComps s = [s] ∧ s ≠ ['.', '.'] ∧ placeOf h s = h.cwd ++ [s] := by
  unfold defaultImageArg at hd
  split at hd
  · cases hd
  · next name hn =>
    have hname := hsrc name (List.mem_of_getLast? hn)
    have key : ∀ ext : Str, ext.getLast? = some 'o' → '/' ∉ ext → s = withExtension name ext isDir →
        hostComps s = [s] ∧ s ≠ ['.', '.'] ∧ placeOf h s = h.cwd ++ [s] := by
      intro ext he hsl hs
      have hne : ext ≠ [] := by rintro rfl; cases he
      obtain ⟨pre, hpre⟩ := withExtension_ext name isDir
      have hlast : s.getLast? = some 'o' := by
        rw [hs, hpre ext hne, List.getLast?_append, he]; rfl
      have hplain : '/' ∉ s := by
        intro hm
        rw [hs] at hm
        rcases withExtension_chars hm with h | h | h
        · exact hname.2.1 h
        · cases h
        · exact hsl h
      have h1 : s ≠ [] := by rintro rfl; cases hlast
      have h2 : s ≠ ['.'] := by rintro rfl; revert hlast; decide
      have h3 : s ≠ ['.', '.'] := by rintro rfl; revert hlast; decide
      refine ⟨hostComps_plain hplain h1, h3, ?_⟩
      unfold placeOf Host.start
      rw [hostComps_plain hplain h1, if_neg (head_of_plain hplain)]
      simp [stepsFrom, h2, h3]
    simp only at hd
    split at hd
    · cases hd; exact key _ (by decide) (by decide) rfl
    · cases hd; exact key _ (by decide) (by decide) rfl

/-- C74 for the arguments of `pack` as they are typed (partial: what was in the source).  Missing: that nothing is added
to the source if the output is given with `..` in its path and does not exist yet, which is false, see
`C74_dotdot_false`.  At every moment, whatever fails, everything that was in the source is as it was, at most one file of
the host has changed, the output, and if its path contains no `..`, nothing was added to the source either. -/
theorem C74_arguments_partial (h : Host) (t : Tool) (read : HostFs → HostPath → SourceFs) (faults : Faults)
    {fs st : HostFs} (hw : WellFormedHost fs) (hn : ProperNames fs) (source : Str) (image : Option Str)
    (hs : st ∈ (cmdPackArgs h t read faults fs source image).1 ∨
      (cmdPackArgs h t read faults fs source image).2 = .ok st) :
    ∃ out, (∀ s, image = some s → out = placeOf h s) ∧ (image = none → out.dropLast = h.cwd) ∧
      (∀ q, q ≠ out → st q = fs q) ∧
      (∀ q, placeOf h source <+: q → fs q ≠ none → st q = fs q) ∧
      ((∀ s, image = some s → ['.', '.'] ∉ hostComps s) → ∀ q, placeOf h source <+: q → st q = fs q) := by
  unfold cmdPackArgs at hs
  cases hst : h.stat fs source with
  | none => rw [hst] at hs; simp at hs
  | some x =>
    obtain ⟨src, node⟩ := x
    obtain ⟨_, hsrc, hnode⟩ := stat_some hst
    rw [hst] at hs
    simp only at hs
    rw [← hsrc]
    have key : ∀ s, (st ∈ (packPathArg h t read faults fs src s).1 ∨
        (packPathArg h t read faults fs src s).2 = .ok st) →
        (∀ q, q ≠ placeOf h s → st q = fs q) ∧ (∀ q, src <+: q → fs q ≠ none → st q = fs q) ∧
        (['.', '.'] ∉ hostComps s → ∀ q, src <+: q → st q = fs q) := by
      intro s hs
      obtain ⟨out, fs1, ho, hq⟩ := packPathArg_seen hs
      obtain ⟨h1, _, _, _, h2, h3⟩ := packOpenArg_ok ho
      subst h1
      exact ⟨hq, fun q hp hne => hq q (fun he => h2 (by rw [← he]; exact hne) (by rw [← he]; exact hp)),
        fun hdd q hp => hq q (fun he => h3 hdd (by rw [← he]; exact hp))⟩
    cases image with
    | some s =>
      obtain ⟨k1, k2, k3⟩ := key s hs
      exact ⟨placeOf h s, fun s' hs' => by cases hs'; rfl, nofun, k1, k2, fun hdd => k3 (hdd s rfl)⟩
    | none =>
      simp only at hs
      cases hd : defaultImageArg h fs src (decide (node = .dir)) with
      | ok s =>
        rw [hd] at hs
        obtain ⟨k1, k2, k3⟩ := key s hs
        obtain ⟨c1, c2, c3⟩ := defaultImageArg_name (properNames_comps hn hw _ rfl (by rw [hnode]; nofun)) hd
        refine ⟨placeOf h s, nofun, fun _ => by rw [c3]; simp, k1, k2, fun _ => k3 ?_⟩
        rw [c1]
        simpa using fun h => c2 h.symm
      | err e => rw [hd] at hs; simp at hs
      | panic => rw [hd] at hs; simp at hs
      | hang => rw [hd] at hs; simp at hs

/-- A host with an empty directory `/s` and a working directory `/w`. -/
def emptySource : HostFs := fun q => if q = [] ∨ q = [['s']] ∨ q = [['w']] then some .dir else none

theorem emptySource_wf : WellFormedHost emptySource := by
  refine ⟨by decide, fun q c h => ?_⟩
  unfold emptySource at h
  split at h
  · next hq =>
    rcases hq with hq | hq | hq
    · simp at hq
    · rw [show ([['s']] : HostPath) = [] ++ [['s']] from rfl] at hq
      obtain ⟨rfl, _⟩ := List.append_inj' hq rfl
      decide
    · rw [show ([['w']] : HostPath) = [] ++ [['w']] from rfl] at hq
      obtain ⟨rfl, _⟩ := List.append_inj' hq rfl
      decide
  · exact absurd rfl h

theorem emptySource_names : ProperNames emptySource := by
  intro q c h
  unfold emptySource at h
  split at h
  · next hq =>
    rcases hq with hq | hq | hq
    · simp at hq
    · rw [show ([['s']] : HostPath) = [] ++ [['s']] from rfl] at hq
      obtain ⟨_, h⟩ := List.append_inj' hq rfl
      simp only [List.cons.injEq, and_true] at h
      subst h; unfold HostName; decide
    · rw [show ([['w']] : HostPath) = [] ++ [['w']] from rfl] at hq
      obtain ⟨_, h⟩ := List.append_inj' hq rfl
      simp only [List.cons.injEq, and_true] at h
      subst h; unfold HostName; decide
  · exact absurd rfl h

/-- The hypotheses of `C74_arguments_partial` hold for `pack ../s`, run in `/w`: the output `/w/s.iso` is created. -/
example (t : Tool) (read : HostFs → HostPath → SourceFs) (faults : Faults) :
    WellFormedHost emptySource ∧ ProperNames emptySource ∧
    emptySource.set [['w'], ['s', '.', 'i', 's', 'o']] (.file []) ∈
      (cmdPackArgs ⟨[['w']], fun _ => .none⟩ t read faults emptySource ['.', '.', '/', 's'] none).1 := by
  refine ⟨emptySource_wf, emptySource_names, ?_⟩
  have hst : Host.stat ⟨[['w']], fun _ => .none⟩ emptySource ['.', '.', '/', 's'] = some ([['s']], .dir) := rfl
  have hd : defaultImageArg ⟨[['w']], fun _ => .none⟩ emptySource [['s']] (decide True) =
    .ok ['s', '.', 'i', 's', 'o'] := rfl
  have ho : packOpenArg ⟨[['w']], fun _ => .none⟩ emptySource [['s']] ['s', '.', 'i', 's', 'o'] =
    .ok ([['w'], ['s', '.', 'i', 's', 'o']], emptySource.set [['w'], ['s', '.', 'i', 's', 'o']] (.file [])) := rfl
  unfold cmdPackArgs
  rw [hst]
  simp only [hd]
  unfold packPathArg
  rw [show emptySource [['s']] = some .dir from rfl]
  simp only [ho]
  split <;> simp

/-- A way to read hosts on which nothing exists but what is in a given list of paths. -/
def listReader (dom : List HostPath) (fs : HostFs) : DirReader where
  names := fun d => (dom.filter (fun p => decide (p ≠ [] ∧ p.dropLast = d ∧ (fs p).isSome))).map
    (fun p => p.getLast?.getD [])
  dirLen := fun _ => 4096
  special := fun _ => false
  split := fun b => [b]

theorem listReader_reads {dom : List HostPath} {fs : HostFs} (hnd : dom.Nodup) (hall : ∀ q, fs q ≠ none → q ∈ dom) :
    ReadsHost (listReader dom fs) fs := by
  refine ⟨fun d => ⟨?_, fun n => ?_⟩, fun b => by simp [listReader], nofun⟩
  · simp only [listReader]
    unfold List.Nodup
    rw [List.pairwise_map]
    refine List.Pairwise.imp_of_mem ?_ (hnd.filter _)
    intro a b ha hb hab he
    simp only [List.mem_filter, decide_eq_true_eq] at ha hb
    obtain ⟨_, ha1, ha2, _⟩ := ha
    obtain ⟨_, hb1, hb2, _⟩ := hb
    apply hab
    rw [← List.dropLast_concat_getLast ha1, ← List.dropLast_concat_getLast hb1, ha2, hb2]
    rw [List.getLast?_eq_some_getLast ha1, List.getLast?_eq_some_getLast hb1] at he
    simpa using he
  · simp only [listReader, List.mem_map, List.mem_filter, decide_eq_true_eq, Bool.false_eq_true, or_false]
    constructor
    · rintro ⟨p, ⟨_, h1, rfl, h3⟩, rfl⟩
      rw [List.getLast?_eq_some_getLast h1, Option.getD_some, List.dropLast_concat_getLast h1]
      intro h; rw [h] at h3; cases h3
    · intro h
      exact ⟨d ++ [n], ⟨hall _ h, by simp, by simp, by cases hx : fs (d ++ [n]) with
        | none => exact absurd hx h
        | some _ => rfl⟩, by simp⟩

/-- What a successful pack of a directory wrote is an image of the directory. -/
theorem packed_imageOf {t : Tool} {r : DirReader} {faults : Faults} {fs : HostFs} {src : HostPath} {b : BufFile}
    (hr : ReadsHost r fs) (hw : WellFormedHost fs)
    (hn : ∀ q c, fs (src ++ q ++ [c]) ≠ none → HostName c)
    (h2 : packFile (stdFs r fs src) (cliPolicy t.early) faults t.fuel = (.ok (), b)) (hbuf : b.buf = []) :
    ImageOf b.img fs src := by
  obtain ⟨⟨s', g1, g2⟩, _, _⟩ := C63_complete_partial h2 hbuf
  have hb := std_bounded (fs := fs) (root := src) hr.2.1
  have hf := std_faithful (fs := fs) (root := src) hr.2.1
  obtain ⟨M, Loc, l0, hP⟩ := pack_packed hb hf g1
  intro h host dest clones hh hfresh
  have hnames : ∀ p e, EntryIn (stdFs r fs src).readDir p e → HostName e.name := by
    intro p e he
    refine hn p e.name ?_
    rw [List.append_assoc]
    rcases std_entry_host he with ⟨_, h⟩ | ⟨_, d, h, _⟩ <;> rw [h] <;> nofun
  obtain ⟨n, st', k1, k2, k3⟩ := C45_unpack_restores hb hf g1 hnames h hh dest host hfresh clones
  rw [g2] at k1
  exact ⟨n, st', k1, treeAt_same hr hw hP.listable k2, k3⟩

theorem o_ok : FlatOk [(['o'], [])] := ascii_flatOk (by unfold DistinctNames; decide) (by decide) (by decide) (by decide)

/-- What exists on `emptySource`, once a file `/s/o` was created. -/
def emptyDom : List HostPath := [[], [['s']], [['w']], [['s'], ['o']]]

/-- C74 is false: `pack /s ../s/o`, run in `/w`, succeeds, and creates its output inside the source `/s`; the image holds
a file `o` that was not in the source. -/
theorem C74_dotdot_false : ∃ (t : Tool) (st : HostFs) (img : Bytes) (fs1 : HostFs),
    (cmdPackArgs ⟨[['w']], fun _ => .none⟩ t (fun fs src => stdFs (listReader emptyDom fs) fs src) (fun _ => none)
      emptySource ['/', 's'] (some ['.', '.', '/', 's', '/', 'o'])).2 = .ok st ∧
    emptySource [['s'], ['o']] = none ∧ st [['s'], ['o']] = some (.file img) ∧
    fs1 [['s'], ['o']] = some (.file []) ∧ ImageOf img fs1 [['s']] := by
  let t : Tool := ⟨fun _ _ => false, fun b => [b], 9, 1⟩
  let fs1 : HostFs := emptySource.set [['s'], ['o']] (.file [])
  have hwe := emptySource_wf
  have hw1 : WellFormedHost fs1 := WellFormedHost.set hwe (.inl (by decide)) (.inr (by decide))
  have hdom : ∀ q, fs1 q ≠ none → q ∈ emptyDom := by
    intro q hq
    by_cases h1 : q = [['s'], ['o']]
    · subst h1; decide
    · rw [show fs1 q = emptySource q from set_other h1] at hq
      unfold emptySource at hq
      split at hq
      · next h => rcases h with rfl | rfl | rfl <;> decide
      · exact absurd rfl hq
  have hr := listReader_reads (dom := emptyDom) (fs := fs1) (by decide) hdom
  obtain ⟨b, hb, hbuf⟩ := root_only_packs (fs := stdFs (listReader emptyDom fs1) fs1 [['s']]) o_ok (by rfl) (by
    intro p e he hd
    rcases std_entry_host he with ⟨h, _⟩ | ⟨_, data, h, _⟩
    · rw [hd] at h; cases h
    · refine ⟨((data.drop 0).take e.len).length, ?_⟩
      show (stdCopy _ fs1 [['s']] (p ++ [e.name]) 0 e.len).2 = _
      unfold stdCopy
      rw [h]) (fuel := 1) (Nat.le_refl 1) (cliPolicy t.early)
  refine ⟨t, fs1.set [['s'], ['o']] (.file b.img), b.img, fs1, ?_, by decide, set_same _ _ _, set_same _ _ _, ?_⟩
  · have ho : packOpenArg ⟨[['w']], fun _ => .none⟩ emptySource [['s']] ['.', '.', '/', 's', '/', 'o'] =
        .ok ([['s'], ['o']], fs1) := rfl
    have hst : Host.stat ⟨[['w']], fun _ => .none⟩ emptySource ['/', 's'] = some ([['s']], .dir) := rfl
    unfold cmdPackArgs
    rw [hst]
    simp only
    unfold packPathArg
    rw [show emptySource [['s']] = some .dir from rfl]
    simp only [ho]
    have hb' : packFile (stdFs (listReader emptyDom fs1) fs1 [['s']]) (cliPolicy t.early) (fun _ => none) t.fuel =
      (.ok (), b) := hb
    simp only [hb']
  · refine packed_imageOf (t := t) hr hw1 ?_ hb hbuf
    intro q c h
    have := hdom _ h
    simp only [emptyDom, List.mem_cons, List.not_mem_nil, or_false, List.append_eq_nil_iff, List.cons_ne_nil, and_false,
      false_or] at this
    rcases this with h | h | h
    · have h := congrArg List.length h; simp at h
    · have h := congrArg List.length h; simp at h
    · have h2 := congrArg List.length h
      simp only [List.length_append, List.length_cons, List.length_nil] at h2
      have hq : q = [] := List.length_eq_zero_iff.1 (by omega)
      subst hq
      simp only [List.append_nil, List.cons_append, List.nil_append, List.cons.injEq, true_and, and_true] at h
      subst h
      unfold HostName; decide

/-! ## C85: create mode makes an image of every directory -/

/-- `out` is where the task `-c DIR [FILE]` puts its image. -/
def TaskOut (h : Host) (task : Str × Option Str) (out : HostPath) : Prop :=
  CreateOut h task.2 (placeOf h task.1) out

/-- A successful task. -/
theorem exisoCreateSingle_ok {h : Host} {t : Tool} {read : HostFs → HostPath → SourceFs} {faults : Faults}
    {fs st : HostFs} {dir : Str} {file : Option Str} (hw : WellFormedHost fs) (hcwd : fs h.cwd = some .dir)
    (hsrc : fs (placeOf h dir) ≠ none → ∀ c ∈ placeOf h dir, HostName c)
    (hs : (exisoCreateSingle h t read faults fs dir file).2 = .ok st) :
    ∃ out b, TaskOut h (dir, file) out ∧ fs (placeOf h dir) = some .dir ∧
      packFile (read (fs.set out (.file [])) (placeOf h dir)) (cliPolicy t.early) faults t.fuel = (.ok (), b) ∧
      st = fs.set out (.file b.img) ∧ WellFormedHost (fs.set out (.file [])) ∧ WellFormedHost st ∧
      fs out ≠ some .dir := by
  unfold exisoCreateSingle at hs
  split at hs
  · next src hst =>
    obtain ⟨_, rfl, hdir⟩ := stat_some hst
    obtain ⟨out, b, h1, h2, h3⟩ := packPathArg_dir_ok hdir hs
    obtain ⟨k1, k2, k3, _, _, _⟩ := packOpenArg_ok h1
    have hpar : fs out.dropLast = some .dir := by
      rcases hostWalk_parent hw _ _ (resolve_walk k2) (start_dir hw hcwd _) with e | e
      · exact absurd e k3
      · exact e
    refine ⟨out, b, ?_, hdir, h2, h3, WellFormedHost.set hw (.inl k3) (.inr hpar),
      by rw [h3]; exact WellFormedHost.set hw (.inl k3) (.inr hpar), k3⟩
    unfold TaskOut CreateOut
    cases file with
    | some s => exact k1
    | none =>
      have hne := hsrc (by rw [hdir]; nofun)
      simp only at k1
      unfold onFileName at k1
      cases hl : (placeOf h dir).getLast? with
      | none =>
        rw [hl] at k1
        simp only at k1
        rw [pathStr_place h hne] at k1
        exact absurd (by rw [k1]; exact hdir) k3
      | some name =>
        rw [hl] at k1
        simp only at k1
        have hsplit : placeOf h dir = (placeOf h dir).dropLast ++ [name] := by
          rw [List.getLast?_eq_some_iff] at hl
          obtain ⟨ys, hys⟩ := hl
          rw [hys]; simp
        have hname := hne name (List.mem_of_getLast? hl)
        obtain ⟨stem, hstem, he⟩ := stdWithExtension_stem (ext := ['i', 's', 'o']) hname.2.2.2.2 (by simp)
        rw [he, pathStr_place h] at k1
        · exact ⟨_, name, stem, hsplit, hstem, k1⟩
        · intro c hc
          rcases List.mem_append.1 hc with hc | hc
          · exact hne c (List.dropLast_subset _ hc)
          · rw [List.mem_singleton.1 hc]
            have hch : ∀ x ∈ stem, x ∈ name := by
              rcases hstem with ⟨e, rfl, _, _⟩ | ⟨rfl, _⟩
              · intro x hx; simp [hx]
              · exact fun _ hx => hx
            refine ⟨by simp, ?_, ?_, ?_, ?_⟩
            · intro hm
              simp only [List.mem_append, List.mem_cons, List.not_mem_nil, or_false] at hm
              rcases hm with hm | hm | hm | hm | hm
              · exact hname.2.1 (hch _ hm)
              all_goals cases hm
            · intro hm
              simp only [List.mem_append] at hm
              rcases hm with hm | hm
              · exact hname.2.2.1 (hch _ hm)
              · revert hm; decide
            · intro hm
              have := congrArg List.length hm
              simp at this
            · intro hm
              have := congrArg List.length hm
              simp at this
  · cases hs
  · cases hs

/-- A state of the host in which only outputs of the tasks differ from `fs`. -/
def OnlyOutputs (h : Host) (tasks : List ((Str × Option Str) × Faults)) (fs fs' : HostFs) : Prop :=
  ∀ q, fs' q ≠ fs q → ∃ x ∈ tasks, TaskOut h x.1 q

theorem TaskOut.unique {h : Host} {task : Str × Option Str} {a b : HostPath} (ha : TaskOut h task a)
    (hb : TaskOut h task b) : a = b := by
  unfold TaskOut CreateOut at ha hb
  cases hf : task.2 with
  | some s => rw [hf] at ha hb; rw [ha, hb]
  | none =>
    rw [hf] at ha hb
    obtain ⟨p, n, s, h1, h2, rfl⟩ := ha
    obtain ⟨p', n', s', h1', h2', rfl⟩ := hb
    rw [h1] at h1'
    obtain ⟨rfl, h3⟩ := List.append_inj' h1' rfl
    simp only [List.cons.injEq, and_true] at h3
    subst h3
    rw [HasStem.unique h2 h2']

/-- The tasks of create mode, one after the other. -/
theorem exisoCreateTasks_ok {h : Host} {t : Tool} {R : HostFs → DirReader} {all : List ((Str × Option Str) × Faults)}
    {fs0 : HostFs} (hn : ProperNames fs0) (hw0 : WellFormedHost fs0) (hcwd : fs0 h.cwd = some .dir)
    (hcout : ∀ x ∈ all, ¬ TaskOut h x.1 h.cwd)
    (houtside : ∀ x ∈ all, ∀ y ∈ all, ∀ o, TaskOut h y.1 o → ¬ placeOf h x.1.1 <+: o) :
    ∀ (tasks : List ((Str × Option Str) × Faults)) (fs : HostFs) {st : HostFs}, (∀ x ∈ tasks, x ∈ all) →
    tasks.Pairwise (fun x y => ∀ o, TaskOut h x.1 o → ¬ TaskOut h y.1 o) →
    WellFormedHost fs → OnlyOutputs h all fs0 fs →
    (exisoCreateTasks h t (fun fs src => stdFs (R fs) fs src) tasks fs).2 = .ok st →
    OnlyOutputs h tasks fs st ∧ ∀ x ∈ tasks, fs0 (placeOf h x.1.1) = some .dir ∧ ∃ fs1 out b,
      WellFormedHost fs1 ∧ OnlyOutputs h all fs0 fs1 ∧ TaskOut h x.1 out ∧
      packFile (stdFs (R fs1) fs1 (placeOf h x.1.1)) (cliPolicy t.early) x.2 t.fuel = (.ok (), b) ∧
      st out = some (.file b.img) := by
  intro tasks
  induction tasks with
  | nil =>
    intro fs st _ _ _ _ hs
    simp only [exisoCreateTasks, Res.ok.injEq] at hs
    subst hs
    exact ⟨fun q hq => absurd rfl hq, by simp⟩
  | cons y rest ih =>
    intro fs st hall hpw hw hoo hs
    obtain ⟨⟨dir, file⟩, faults⟩ := y
    have hyall := hall _ List.mem_cons_self
    have hsame : ∀ q, placeOf h dir <+: q → fs q = fs0 q := by
      intro q hq
      apply Classical.byContradiction
      intro hne
      obtain ⟨x, hx, ho⟩ := hoo q hne
      exact houtside _ hyall x hx q ho hq
    have hcwd' : fs h.cwd = some .dir := by
      rw [← hcwd]
      apply Classical.byContradiction
      intro hne
      obtain ⟨x, hx, ho⟩ := hoo _ hne
      exact hcout x hx ho
    simp only [exisoCreateTasks] at hs
    cases hr : (exisoCreateSingle h t (fun fs src => stdFs (R fs) fs src) faults fs dir file).2 with
    | ok fs' =>
      rw [hr] at hs
      simp only at hs
      obtain ⟨out, b, h1, h2, h3, h4, h5, h6, _⟩ := exisoCreateSingle_ok hw hcwd' (by
        intro hne
        rw [hsame _ (List.prefix_refl _)] at hne
        exact properNames_comps hn hw0 _ rfl hne) hr
      have hset : ∀ n, OnlyOutputs h all fs0 (fs.set out n) := by
        intro n q hq
        by_cases he : q = out
        · subst he; exact ⟨_, hyall, h1⟩
        · rw [set_other he] at hq; exact hoo q hq
      obtain ⟨i1, i2⟩ := ih fs' (fun x hx => hall x (List.mem_cons_of_mem _ hx)) (List.pairwise_cons.1 hpw).2 h6
        (by rw [h4]; exact hset _) hs
      refine ⟨?_, ?_⟩
      · intro q hq
        by_cases he : st q = fs' q
        · rw [he, h4] at hq
          by_cases hqo : q = out
          · subst hqo; exact ⟨_, List.mem_cons_self, h1⟩
          · rw [set_other hqo] at hq; exact absurd rfl hq
        · obtain ⟨x, hx, ho⟩ := i1 q he
          exact ⟨x, List.mem_cons_of_mem _ hx, ho⟩
      · intro x hx
        rcases List.mem_cons.1 hx with rfl | hx
        · refine ⟨by rw [← hsame _ (List.prefix_refl _)]; exact h2, fs.set out (.file []), out, b, h5, hset _, h1, h3, ?_⟩
          have : st out = fs' out := by
            apply Classical.byContradiction
            intro hne
            obtain ⟨z, hz, ho⟩ := i1 _ hne
            exact (List.pairwise_cons.1 hpw).1 z hz out h1 ho
          rw [this, h4, set_same]
        · exact i2 x hx
    | err e => rw [hr] at hs; cases hs
    | panic => rw [hr] at hs; cases hs
    | hang => rw [hr] at hs; cases hs

theorem set_set (fs : HostFs) (p : HostPath) (a b : HostNode) : (fs.set p a).set p b = fs.set p b := by
  funext q
  by_cases hq : q = p <;> simp [HostFs.set, hq]

theorem exisoCreateSingle_runs {h : Host} {t : Tool} {read : HostFs → HostPath → SourceFs} {faults : Faults}
    {fs : HostFs} {dir : Str} {file : Option Str} {src out : HostPath} {image : Str} {b : BufFile}
    (hst : h.stat fs dir = some (src, .dir))
    (himg : image = match file with
      | some s => s
      | none => pathStr (onFileName (fun n => stdWithExtension n ['i', 's', 'o']) src))
    (ho : packOpenArg h fs src image = .ok (out, fs.set out (.file [])))
    (hb : packFile (read (fs.set out (.file [])) src) (cliPolicy t.early) faults t.fuel = (.ok (), b)) :
    (exisoCreateSingle h t read faults fs dir file).2 = .ok (fs.set out (.file b.img)) := by
  have e : exisoCreateSingle h t read faults fs dir file = packPathArg h t read faults fs src image := by
    unfold exisoCreateSingle
    rw [hst]
    cases file <;> simp only at himg ⊢ <;> rw [himg]
  rw [e]
  unfold packPathArg
  rw [(stat_some hst).2.2]
  simp only [ho, hb, set_set]

/-- A directory of the host with files only packs, if nothing fails. -/
theorem flat_dir_packs {r : DirReader} {fs : HostFs} {src : HostPath} {files : List (Str × Bytes)} (hok : FlatOk files)
    (hroot : (stdFs r fs src).readDir [] = (flatFs files).readDir []) {fuel : Nat} (hf : 1 ≤ fuel) (pol : BufPolicy) :
    ∃ b, packFile (stdFs r fs src) pol (fun _ => none) fuel = (.ok (), b) ∧ b.buf = [] := by
  refine root_only_packs hok hroot ?_ hf pol
  intro p e he hd
  rcases std_entry_host he with ⟨h, _⟩ | ⟨_, data, h, _⟩
  · rw [hd] at h; cases h
  · refine ⟨((data.drop 0).take e.len).length, ?_⟩
    show (stdCopy _ fs src (p ++ [e.name]) 0 e.len).2 = _
    unfold stdCopy
    rw [h]

/-- C85 for tasks whose outputs differ (partial).  Missing: that tasks without a FILE have outputs that differ, which is
false, see `C85_create_false`.  If create mode reports success, the outputs were flushed when they were closed, and no
output is in a directory that is packed, then each task has left an image of its directory at its output, and nothing
else has changed.  Whatever the order in which the host lists directories. -/
theorem C85_create_partial (h : Host) (t : Tool) (R : HostFs → DirReader) {tasks : List ((Str × Option Str) × Faults)}
    {fs st : HostFs} (hn : ProperNames fs) (hw : WellFormedHost fs) (hcwd : fs h.cwd = some .dir)
    (hread : ∀ fs', OnlyOutputs h tasks fs fs' → ReadsHost (R fs') fs')
    (hclose : ∀ fs' x, OnlyOutputs h tasks fs fs' → x ∈ tasks →
      FlushedClean t x.2 (stdFs (R fs') fs' (placeOf h x.1.1)))
    (hcout : ∀ x ∈ tasks, ¬ TaskOut h x.1 h.cwd)
    (houtside : ∀ x ∈ tasks, ∀ y ∈ tasks, ∀ o, TaskOut h y.1 o → ¬ placeOf h x.1.1 <+: o)
    (hdistinct : tasks.Pairwise (fun x y => ∀ o, TaskOut h x.1 o → ¬ TaskOut h y.1 o))
    (hs : (exisoCreateTasks h t (fun fs src => stdFs (R fs) fs src) tasks fs).2 = .ok st) :
    (∀ x ∈ tasks, ∃ out img, TaskOut h x.1 out ∧ IsFile st out img ∧ ImageOf img fs (placeOf h x.1.1)) ∧
    OnlyOutputs h tasks fs st := by
  obtain ⟨h1, h2⟩ := exisoCreateTasks_ok hn hw hcwd hcout houtside tasks fs (fun _ hx => hx) hdistinct hw
    (fun q hq => absurd rfl hq) hs
  refine ⟨fun x hx => ?_, h1⟩
  obtain ⟨_, fs1, out, b, k1, k2, k3, k4, k5⟩ := h2 x hx
  have hsame : ∀ q, placeOf h x.1.1 <+: q → fs1 q = fs q := by
    intro q hq
    apply Classical.byContradiction
    intro hne
    obtain ⟨y, hy, ho⟩ := k2 q hne
    exact houtside _ hx y hy q ho hq
  have hbuf : b.buf = [] := by
    have := hclose fs1 x k2 hx
    unfold FlushedClean at this
    rw [k4] at this
    exact this
  refine ⟨out, b.img, k3, k5, ?_⟩
  have := packed_imageOf (t := t) (hread fs1 k2) k1 (src := placeOf h x.1.1) (by
    intro q c hne
    rw [hsame _ (by rw [List.append_assoc]; exact List.prefix_append _ _)] at hne
    exact hn _ c hne) k4 hbuf
  intro h' host dest clones hh hfresh
  obtain ⟨n, host', g1, g2, g3⟩ := this h' host dest clones hh hfresh
  exact ⟨n, host', g1, fun s hs => by rw [g2 s hs, hsame _ (List.prefix_append _ _)], g3⟩

/-- A host with two directories `/g.1` and `/g.2`, each with a file. -/
def twoGames : HostFs := fun q =>
  if q = [] ∨ q = [['g', '.', '1']] ∨ q = [['g', '.', '2']] then some .dir
  else if q = [['g', '.', '1'], ['a']] then some (.file [1])
  else if q = [['g', '.', '2'], ['b']] then some (.file [2])
  else none

def gIso : HostPath := [['g', '.', 'i', 's', 'o']]

def gamesDom : List HostPath :=
  [[], [['g', '.', '1']], [['g', '.', '2']], [['g', '.', '1'], ['a']], [['g', '.', '2'], ['b']], gIso, [['x']]]

theorem twoGames_dom {q : HostPath} (h : twoGames q ≠ none) :
    q = [] ∨ q = [['g', '.', '1']] ∨ q = [['g', '.', '2']] ∨ q = [['g', '.', '1'], ['a']] ∨ q = [['g', '.', '2'], ['b']] := by
  unfold twoGames at h
  split at h
  · next hq => rcases hq with hq | hq | hq <;> simp [hq]
  · split at h
    · next hq => simp [hq]
    · split at h
      · next hq => simp [hq]
      · exact absurd rfl h

theorem twoGames_wf : WellFormedHost twoGames := by
  refine ⟨by decide, fun q c h => ?_⟩
  rcases twoGames_dom h with h | h | h | h | h
  · simp at h
  · rw [show ([['g', '.', '1']] : HostPath) = [] ++ [['g', '.', '1']] from rfl] at h
    obtain ⟨rfl, _⟩ := List.append_inj' h rfl
    decide
  · rw [show ([['g', '.', '2']] : HostPath) = [] ++ [['g', '.', '2']] from rfl] at h
    obtain ⟨rfl, _⟩ := List.append_inj' h rfl
    decide
  · rw [show ([['g', '.', '1'], ['a']] : HostPath) = [['g', '.', '1']] ++ [['a']] from rfl] at h
    obtain ⟨rfl, _⟩ := List.append_inj' h rfl
    decide
  · rw [show ([['g', '.', '2'], ['b']] : HostPath) = [['g', '.', '2']] ++ [['b']] from rfl] at h
    obtain ⟨rfl, _⟩ := List.append_inj' h rfl
    decide

theorem twoGames_names : ProperNames twoGames := by
  intro q c h
  rcases twoGames_dom h with h | h | h | h | h
  · simp at h
  · rw [show ([['g', '.', '1']] : HostPath) = [] ++ [['g', '.', '1']] from rfl] at h
    obtain ⟨_, h⟩ := List.append_inj' h rfl
    simp only [List.cons.injEq, and_true] at h
    subst h; unfold HostName; decide
  · rw [show ([['g', '.', '2']] : HostPath) = [] ++ [['g', '.', '2']] from rfl] at h
    obtain ⟨_, h⟩ := List.append_inj' h rfl
    simp only [List.cons.injEq, and_true] at h
    subst h; unfold HostName; decide
  · rw [show ([['g', '.', '1'], ['a']] : HostPath) = [['g', '.', '1']] ++ [['a']] from rfl] at h
    obtain ⟨_, h⟩ := List.append_inj' h rfl
    simp only [List.cons.injEq, and_true] at h
    subst h; unfold HostName; decide
  · rw [show ([['g', '.', '2'], ['b']] : HostPath) = [['g', '.', '2']] ++ [['b']] from rfl] at h
    obtain ⟨_, h⟩ := List.append_inj' h rfl
    simp only [List.cons.injEq, and_true] at h
    subst h; unfold HostName; decide

theorem a1_ok : FlatOk [(['a'], [1])] := ascii_flatOk (by unfold DistinctNames; decide) (by decide) (by decide) (by decide)
theorem b2_ok : FlatOk [(['b'], [2])] := ascii_flatOk (by unfold DistinctNames; decide) (by decide) (by decide) (by decide)

/-- An image is an image of one content only. -/
theorem ImageOf.same {img : Bytes} {fs fs' : HostFs} {src src' : HostPath} (h : ImageOf img fs src)
    (h' : ImageOf img fs' src') : SameBelow fs src fs' src' := by
  obtain ⟨n, st, h1, h2, _⟩ := h sampleHost sampleHostFs ['o', 'u', 't'] true (fun _ => rfl) sample_fresh
  obtain ⟨n', st', h1', h2', _⟩ := h' sampleHost sampleHostFs ['o', 'u', 't'] true (fun _ => rfl) sample_fresh
  have e := h1 (max n n' + 1) (by omega)
  rw [h1' (max n n' + 1) (by omega)] at e
  cases e
  intro s hs
  rw [← h2 s hs, h2' s hs]

/-- C85 is false: `-c /g.1 -c /g.2` reports success, but both images go to `/g.iso`, so that the second replaces the
first: no file but `/g.iso` has changed, and that is an image of `/g.2`, not of `/g.1`. -/
theorem C85_create_false : ∃ (t : Tool) (tasks : List (Str × Option Str)) (st : HostFs) (img : Bytes),
    createTasks ['/', 'g', '.', '1'] none [['-', 'c'], ['/', 'g', '.', '2']] = .ok tasks ∧
    (exisoCreateTasks ⟨[], fun _ => .none⟩ t (fun fs src => stdFs (listReader gamesDom fs) fs src)
      (tasks.map (fun x => (x, fun _ => none))) twoGames).2 = .ok st ∧
    (∀ q, st q ≠ twoGames q → q = gIso) ∧ IsFile st gIso img ∧
    ImageOf img twoGames [['g', '.', '2']] ∧ ¬ ImageOf img twoGames [['g', '.', '1']] := by
  obtain ⟨t, ht⟩ : ∃ t : Tool, t.fuel = 1 := ⟨⟨fun _ _ => false, fun b => [b], 9, 1⟩, rfl⟩
  let fs1 : HostFs := twoGames.set gIso (.file [])
  have hw1 : WellFormedHost fs1 := WellFormedHost.set twoGames_wf (.inl (by decide)) (.inr (by decide))
  have hdom : ∀ q, fs1 q ≠ none → q ∈ gamesDom := by
    intro q hq
    by_cases h1 : q = gIso
    · subst h1; decide
    · rw [show fs1 q = twoGames q from set_other h1] at hq
      rcases twoGames_dom hq with rfl | rfl | rfl | rfl | rfl <;> decide
  have hr := listReader_reads (dom := gamesDom) (fs := fs1) (by decide) hdom
  obtain ⟨b1, hb1, _⟩ := flat_dir_packs (r := listReader gamesDom fs1) (fs := fs1) (src := [['g', '.', '1']]) a1_ok
    (by rfl) (fuel := 1) (Nat.le_refl 1) (cliPolicy t.early)
  obtain ⟨b2, hb2, hbuf2⟩ := flat_dir_packs (r := listReader gamesDom fs1) (fs := fs1) (src := [['g', '.', '2']]) b2_ok
    (by rfl) (fuel := 1) (Nat.le_refl 1) (cliPolicy t.early)
  rw [← ht] at hb1 hb2
  have o1 : packOpenArg ⟨[], fun _ => .none⟩ twoGames [['g', '.', '1']] ['/', 'g', '.', 'i', 's', 'o'] =
      .ok (gIso, twoGames.set gIso (.file [])) := rfl
  have o2 : ∀ b, packOpenArg ⟨[], fun _ => .none⟩ (twoGames.set gIso (.file b)) [['g', '.', '2']]
      ['/', 'g', '.', 'i', 's', 'o'] = .ok (gIso, (twoGames.set gIso (.file b)).set gIso (.file [])) := fun b => rfl
  have s1 : Host.stat ⟨[], fun _ => .none⟩ twoGames ['/', 'g', '.', '1'] = some ([['g', '.', '1']], .dir) := rfl
  have s2 : ∀ b, Host.stat ⟨[], fun _ => .none⟩ (twoGames.set gIso (.file b)) ['/', 'g', '.', '2'] =
      some ([['g', '.', '2']], .dir) := fun b => rfl
  have e1 := exisoCreateSingle_runs (t := t) (read := fun fs src => stdFs (listReader gamesDom fs) fs src)
    (faults := fun _ => none) (file := none) (b := b1) s1 rfl o1 hb1
  have e2 := exisoCreateSingle_runs (t := t) (read := fun fs src => stdFs (listReader gamesDom fs) fs src)
    (faults := fun _ => none) (file := none) (b := b2) (s2 b1.img) rfl (o2 b1.img) (by rw [set_set]; exact hb2)
  rw [set_set] at e2
  have himg : ImageOf b2.img fs1 [['g', '.', '2']] := by
    refine packed_imageOf (t := t) hr hw1 ?_ hb2 hbuf2
    intro q c hne
    rw [show fs1 ([['g', '.', '2']] ++ q ++ [c]) = twoGames ([['g', '.', '2']] ++ q ++ [c]) from
      set_other (by intro he; have := congrArg List.length he; simp [gIso] at this)] at hne
    exact twoGames_names _ c hne
  have himg' : ImageOf b2.img twoGames [['g', '.', '2']] := by
    intro h' host dest clones hh hfresh
    obtain ⟨n, host', g1, g2, g3⟩ := himg h' host dest clones hh hfresh
    refine ⟨n, host', g1, fun s hs => ?_, g3⟩
    rw [g2 s hs]
    exact set_other (by
      intro he
      simp only [gIso, List.cons_append, List.nil_append, List.cons.injEq] at he
      exact absurd he.1 (by decide))
  refine ⟨t, [(['/', 'g', '.', '1'], none), (['/', 'g', '.', '2'], none)], twoGames.set gIso (.file b2.img), b2.img, rfl, ?_,
    fun q hq => ?_, set_same _ _ _, himg', fun hc => ?_⟩
  · simp only [List.map_cons, List.map_nil, exisoCreateTasks, e1, e2]
  · apply Classical.byContradiction
    intro hne
    exact hq (set_other hne)
  · have := ImageOf.same himg' hc [['b']] (by simp)
    revert this; decide

/-- The tasks of `-c /g.1 /x -c /g.2`. -/
def gameTasks : List ((Str × Option Str) × Faults) :=
  [((['/', 'g', '.', '1'], some ['/', 'x']), fun _ => none), ((['/', 'g', '.', '2'], none), fun _ => none)]

theorem gameTasks_out {x : (Str × Option Str) × Faults} (hx : x ∈ gameTasks) {o : HostPath}
    (ho : TaskOut ⟨[], fun _ => .none⟩ x.1 o) :
    (x.1.1 = ['/', 'g', '.', '1'] ∧ o = [['x']]) ∨ (x.1.1 = ['/', 'g', '.', '2'] ∧ o = gIso) := by
  simp only [gameTasks, List.mem_cons, List.not_mem_nil, or_false] at hx
  rcases hx with rfl | rfl
  · exact .inl ⟨rfl, TaskOut.unique ho (by show [['x']] = placeOf _ _; decide)⟩
  · refine .inr ⟨rfl, TaskOut.unique ho ⟨[], ['g', '.', '2'], ['g'], by decide, .inl ⟨['2'], rfl, by decide, by decide⟩, rfl⟩⟩

theorem gameTasks_reads (fs' : HostFs) (ho : OnlyOutputs ⟨[], fun _ => .none⟩ gameTasks twoGames fs') :
    ReadsHost (listReader gamesDom fs') fs' := by
  refine listReader_reads (by decide) (fun q hq => ?_)
  by_cases he : fs' q = twoGames q
  · rw [he] at hq
    rcases twoGames_dom hq with rfl | rfl | rfl | rfl | rfl <;> decide
  · obtain ⟨x, hx, hxo⟩ := ho q he
    rcases gameTasks_out hx hxo with ⟨_, rfl⟩ | ⟨_, rfl⟩ <;> decide

/-- The hypotheses of `C85_create_partial` hold for `-c /g.1 /x -c /g.2`. -/
example : ∃ (t : Tool) (st : HostFs) (i j : Bytes),
    (exisoCreateTasks ⟨[], fun _ => .none⟩ t (fun fs src => stdFs (listReader gamesDom fs) fs src) gameTasks twoGames).2 =
      .ok st ∧ IsFile st [['x']] i ∧ ImageOf i twoGames [['g', '.', '1']] ∧
    IsFile st gIso j ∧ ImageOf j twoGames [['g', '.', '2']] := by
  obtain ⟨t, ht⟩ : ∃ t : Tool, t.fuel = 1 := ⟨⟨fun _ _ => false, fun b => [b], 9, 1⟩, rfl⟩
  obtain ⟨b1, hb1, _⟩ := flat_dir_packs (r := listReader gamesDom (twoGames.set [['x']] (.file [])))
    (fs := twoGames.set [['x']] (.file [])) (src := [['g', '.', '1']]) a1_ok
    (by rfl) (fuel := 1) (Nat.le_refl 1) (cliPolicy t.early)
  obtain ⟨b2, hb2, _⟩ := flat_dir_packs
    (r := listReader gamesDom ((twoGames.set [['x']] (.file b1.img)).set gIso (.file [])))
    (fs := (twoGames.set [['x']] (.file b1.img)).set gIso (.file [])) (src := [['g', '.', '2']]) b2_ok
    (by rfl) (fuel := 1) (Nat.le_refl 1) (cliPolicy t.early)
  rw [← ht] at hb1 hb2
  have o1 : packOpenArg ⟨[], fun _ => .none⟩ twoGames [['g', '.', '1']] ['/', 'x'] =
      .ok ([['x']], twoGames.set [['x']] (.file [])) := rfl
  have o2 : ∀ b, packOpenArg ⟨[], fun _ => .none⟩ (twoGames.set [['x']] (.file b)) [['g', '.', '2']]
      ['/', 'g', '.', 'i', 's', 'o'] = .ok (gIso, (twoGames.set [['x']] (.file b)).set gIso (.file [])) := fun b => rfl
  have s1 : Host.stat ⟨[], fun _ => .none⟩ twoGames ['/', 'g', '.', '1'] = some ([['g', '.', '1']], .dir) := rfl
  have s2 : ∀ b, Host.stat ⟨[], fun _ => .none⟩ (twoGames.set [['x']] (.file b)) ['/', 'g', '.', '2'] =
      some ([['g', '.', '2']], .dir) := fun b => rfl
  have e1 := exisoCreateSingle_runs (t := t) (read := fun fs src => stdFs (listReader gamesDom fs) fs src)
    (faults := fun _ => none) (file := some ['/', 'x']) (b := b1) s1 rfl o1 hb1
  have e2 := exisoCreateSingle_runs (t := t) (read := fun fs src => stdFs (listReader gamesDom fs) fs src)
    (faults := fun _ => none) (file := none) (b := b2) (s2 b1.img) rfl (o2 b1.img) hb2
  have hrun : (exisoCreateTasks ⟨[], fun _ => .none⟩ t (fun fs src => stdFs (listReader gamesDom fs) fs src) gameTasks
      twoGames).2 = .ok ((twoGames.set [['x']] (.file b1.img)).set gIso (.file b2.img)) := by
    simp only [gameTasks, exisoCreateTasks, e1, e2]
  obtain ⟨h1, _⟩ := C85_create_partial ⟨[], fun _ => .none⟩ t (listReader gamesDom) twoGames_names twoGames_wf (by decide)
    gameTasks_reads
    (fun fs' x _ hx => by
      have hx2 : x.2 = fun _ => none := by
        simp only [gameTasks, List.mem_cons, List.not_mem_nil, or_false] at hx
        rcases hx with rfl | rfl <;> rfl
      unfold FlushedClean
      rw [hx2]
      exact (C63_buffer_unnoticed _ _ _).2)
    (fun x hx ho => by rcases gameTasks_out hx ho with ⟨_, h⟩ | ⟨_, h⟩ <;> exact absurd h (by decide))
    (fun x hx y hy o ho => by
      have hp : placeOf ⟨[], fun _ => .none⟩ x.1.1 = [['g', '.', '1']] ∨ placeOf ⟨[], fun _ => .none⟩ x.1.1 = [['g', '.', '2']] := by
        simp only [gameTasks, List.mem_cons, List.not_mem_nil, or_false] at hx
        rcases hx with rfl | rfl
        · exact .inl (by decide)
        · exact .inr (by decide)
      rcases gameTasks_out hy ho with ⟨_, rfl⟩ | ⟨_, rfl⟩ <;> rcases hp with hp | hp <;> rw [hp] <;> decide)
    (by
      unfold gameTasks
      refine List.pairwise_cons.2 ⟨fun y hy o h1 h2 => ?_, List.pairwise_cons.2 ⟨by simp, by simp⟩⟩
      rw [List.mem_singleton.1 hy] at h2
      have g1 := gameTasks_out (x := ((['/', 'g', '.', '1'], some ['/', 'x']), fun _ => none)) (by simp [gameTasks]) h1
      have g2 := gameTasks_out (x := ((['/', 'g', '.', '2'], none), fun _ => none)) (by simp [gameTasks]) h2
      simp only [List.cons.injEq, Char.reduceEq, and_false, false_and, or_false, true_and, false_or, and_true] at g1 g2
      rw [g1] at g2
      revert g2; decide)
    hrun
  obtain ⟨o, i, k1, k2, k3⟩ := h1 ((['/', 'g', '.', '1'], some ['/', 'x']), fun _ => none) (by simp [gameTasks])
  obtain ⟨o', j, k1', k2', k3'⟩ := h1 ((['/', 'g', '.', '2'], none), fun _ => none) (by simp [gameTasks])
  have ho : o = [['x']] := by
    rcases gameTasks_out (x := ((['/', 'g', '.', '1'], some ['/', 'x']), fun _ => none)) (by simp [gameTasks]) k1 with
      ⟨_, h⟩ | ⟨h, _⟩
    · exact h
    · exact absurd h (by decide)
  have ho' : o' = gIso := by
    rcases gameTasks_out (x := ((['/', 'g', '.', '2'], none), fun _ => none)) (by simp [gameTasks]) k1' with
      ⟨h, _⟩ | ⟨_, h⟩
    · exact absurd h (by decide)
    · exact h
  subst ho ho'
  exact ⟨t, _, i, j, hrun, k2, k3, k2', k3'⟩

end Xdvdfs.Props
