import Verif.Props.PacksIff
import Verif.Proof.Refusals
import Verif.Proof.StdFs
import Verif.Props.CliPaths

/-!
# What the error of a failing pack tells (C145)
-/

namespace Xdvdfs.Props

open Xdvdfs Spec

/-- C145.  The error of a failing pack tells something that is the case: a directory of the source could not be listed and
failed with this error; or a listing has the defect that the error names; or a directory is too large; or an operation of the
output, or the copying of a file of the source, failed with this error. -/
theorem C145_error_is_true {σ : Type} {env : PackEnv σ} {fuel : Nat} {s s' : PackState σ} {e : Err}
    (h : createImage env fuel s = (.err e, s')) : SourceDefect env.readDir e ∨ DeviceErr env e := by
  rcases createImage_err h with ⟨h, _⟩ | h
  · exact .inl (createP_defect h)
  · exact .inr h

/-- C145.  Into an output that works, a pack of a source that fits succeeds, or it fails with an error that names a defect of
the source.  Unless a directory is too large, it has not touched the output when it fails. -/
theorem C145_refusal {σ : Type} (env : PackEnv σ) {tree : List (Path × List FileEntry)}
    (hret : ∀ p, DirOf env.readDir p → (env.readDir p).Returns) (ht : TreeOf env.readDir tree) (hF : Fits tree)
    (hdev : DeviceWorks env) :
    ∃ n, ∀ fuel, n ≤ fuel → ∀ s, (createImage env fuel s).1 = .ok () ∨
      ∃ e, (createImage env fuel s).1 = .err e ∧ SourceDefect env.readDir e ∧
        (e ≠ .tooManyEntries → (createImage env fuel s).2.dev = s.dev) := by
  obtain ⟨n, hn⟩ := plan_cases env.pathToString hret ht hF
  refine ⟨n, fun fuel hf s => ?_⟩
  rcases hn fuel hf with h | ⟨e, h⟩
  · exact .inl (createImage_works hdev h s)
  · refine .inr ⟨e, ?_, createP_defect h, fun he => ?_⟩
    · have hr := runOps_works hdev (createP env.readDir env.pathToString fuel).ops s PlanShape.planFromSource
      rw [createImage_eq]
      simp only [PM.bind_def, Pl.run]
      rcases hq : runOps env (createP env.readDir env.pathToString fuel).ops s with ⟨r, s1⟩
      rw [hq] at hr
      simp only at hr
      subst hr
      simp only [PM.lift, h]
    · have hr := runOps_works hdev (createP env.readDir env.pathToString fuel).ops s PlanShape.planFromSource
      have hd := runOps_reports_dev (env := env) (createP_early h he) s
      rw [createImage_eq]
      simp only [PM.bind_def, Pl.run]
      rcases hq : runOps env (createP env.readDir env.pathToString fuel).ops s with ⟨r, s1⟩
      rw [hq] at hr hd
      simp only at hr hd
      subst hr
      simp only [PM.lift, h]
      exact hd

/-- C145.  If all defects of a source are of one kind, and it does not pack, this kind is reported. -/
theorem C145_only_reason {σ : Type} (env : PackEnv σ) {tree : List (Path × List FileEntry)}
    (hret : ∀ p, DirOf env.readDir p → (env.readDir p).Returns) (ht : TreeOf env.readDir tree) (hF : Fits tree)
    (hdev : DeviceWorks env) {e : Err} (honly : ∀ e', SourceDefect env.readDir e' → e' = e) :
    ∃ n, ∀ fuel, n ≤ fuel → ∀ s, (createImage env fuel s).1 = .ok () ∨ (createImage env fuel s).1 = .err e := by
  obtain ⟨n, hn⟩ := C145_refusal env hret ht hF hdev
  refine ⟨n, fun fuel hf s => ?_⟩
  rcases hn fuel hf s with h | ⟨e', h1, h2, _⟩
  · exact .inl h
  · rw [honly e' h2] at h1
    exact .inr h1

/-- C145.  Names that differ in ASCII case only are reported as duplicates, if nothing else is wrong. -/
theorem C145_duplicates_named {σ : Type} (env : PackEnv σ) {tree : List (Path × List FileEntry)} (hL : Listable env.readDir)
    (ht : TreeOf env.readDir tree) (hF : Fits tree) (hdev : DeviceWorks env) (hK : ∀ x ∈ tree, FewEntries x.2)
    (hok : ∀ p x, EntryIn env.readDir p x →
      utf8Len x.name ≤ 255 ∧ (∀ c ∈ x.name, InCp1252 c) ∧ (x.isDir = false → x.len < 2 ^ 32))
    {d : Path} {l : List FileEntry} (hd : DirOf env.readDir d) (hl : env.readDir d = .ok l)
    (hdup : ¬ DistinctNames (l.map FileEntry.name)) :
    ∃ n, ∀ fuel, n ≤ fuel → ∀ s, (createImage env fuel s).1 = .err .duplicateFileName ∧
      (createImage env fuel s).2.dev = s.dev := by
  obtain ⟨n, hn⟩ := C145_refusal env (fun p hp => by obtain ⟨l, hl⟩ := hL p hp; rw [hl]; exact ⟨by simp, by simp⟩) ht hF hdev
  refine ⟨max n tree.length, fun fuel hf s => ?_⟩
  rcases hn fuel (by omega) s with h | ⟨e, h1, ⟨p, h2, h3⟩, h4⟩
  · have := (C144_packs_iff env hL ht hF hK hdev (fuel := fuel) (by omega) s).1 h (d, l) ((ht.2 d l).2 ⟨hd, hl⟩)
    exact absurd this.1 hdup
  · have he : e = .duplicateFileName := by
      rcases h3 with h3 | ⟨l', h3, h5 | ⟨_, h5⟩⟩
      · obtain ⟨l', hl'⟩ := hL p h2
        rw [hl'] at h3; cases h3
      · rcases h5 with ⟨_, x, hx, h5⟩ | ⟨_, x, hx, c, hc, h5⟩ | ⟨h5, _⟩ | ⟨_, x, hx, h5, h6⟩
        · have := (hok p x ⟨h2, l', h3, hx⟩).1
          omega
        · exact absurd ((hok p x ⟨h2, l', h3, hx⟩).2.1 c hc) h5
        · exact h5
        · have := (hok p x ⟨h2, l', h3, hx⟩).2.2 h5
          omega
      · exact absurd (hK (p, l') ((ht.2 p l').2 ⟨h2, h3⟩)) h5
    subst he
    exact ⟨h1, h4 (by simp)⟩

/-- The hypotheses hold for a directory with files `a` and `A`: it is refused as having duplicate names, and the output is
left alone. -/
example : ∃ n, ∀ fuel, n ≤ fuel → ∀ s : PackState ImgFile,
    (createImage (fileEnv (flatFs [(['a'], []), (['A'], [])]) (fun _ => none)) fuel s).1 = .err .duplicateFileName ∧
    (createImage (fileEnv (flatFs [(['a'], []), (['A'], [])]) (fun _ => none)) fuel s).2.dev = s.dev := by
  refine C145_duplicates_named (fileEnv (flatFs [(['a'], []), (['A'], [])]) (fun _ => none)) (flat_listable _) (flat_tree _) ?_
    (fileEnv_works (fun _ e _ _ => ⟨e.len, rfl⟩)) ?_ ?_ .root (l := [⟨['a'], false, 0⟩, ⟨['A'], false, 0⟩]) rfl ?_
  · exact ⟨by decide, by decide⟩
  · intro x hx
    rw [List.mem_singleton.1 hx]
    show _ ≤ _
    decide
  · intro p x hx
    obtain ⟨_, y, hy, rfl⟩ := (flat_entries p x).1 hx
    simp only [List.mem_cons, List.not_mem_nil, or_false] at hy
    rcases hy with rfl | rfl
    · exact ⟨by decide, fun c hc => by rw [List.mem_singleton.1 hc]; exact ⟨97, by decide, by decide⟩, by decide⟩
    · exact ⟨by decide, fun c hc => by rw [List.mem_singleton.1 hc]; exact ⟨65, by decide, by decide⟩, by decide⟩
  · unfold DistinctNames
    decide

/-! ## The command line -/

theorem rawWrite_err {faults : Faults} {data : Bytes} {b : BufFile} {e : Err} (h : (rawWrite faults data b).1 = .err e) :
    e = .io := by
  unfold rawWrite at h
  split at h <;> cases h
  rfl

theorem flushBuf_err {faults : Faults} {b : BufFile} {e : Err} (h : (flushBuf faults b).1 = .err e) : e = .io := by
  unfold flushBuf at h
  split at h
  · cases h
  · split at h <;> cases h
    rfl

theorem bufSeek_err {faults : Faults} {off : Nat} {b : BufFile} {e : Err} (h : (bufSeek faults off b).1 = .err e) :
    e = .io := by
  unfold bufSeek at h
  split at h
  · cases h
  · next x y hx => exact flushBuf_err (b := b) (by rw [hx]; exact h)

theorem bufPut_err {pol : BufPolicy} {faults : Faults} {data : Bytes} {b : BufFile} {e : Err}
    (h : (bufPut pol faults data b).1 = .err e) : e = .io := by
  unfold bufPut at h
  split at h
  · split at h
    · exact rawWrite_err h
    · cases h
  · next x y hx =>
    split at hx
    · exact flushBuf_err (b := b) (by rw [hx]; exact h)
    · cases hx; cases h

theorem bufWrite_err {pol : BufPolicy} {faults : Faults} {off : Nat} {data : Bytes} {b : BufFile} {e : Err}
    (h : (bufWrite pol faults off data b).1 = .err e) : e = .io := by
  unfold bufWrite at h
  split at h
  · exact bufPut_err h
  · next x y hx => exact bufSeek_err (b := b) (by rw [hx]; exact h)

theorem bufChunks_err {pol : BufPolicy} {faults : Faults} {e : Err} : ∀ {cs : List Bytes} {b : BufFile},
    (bufChunks pol faults cs b).1 = .err e → e = .io := by
  intro cs
  induction cs with
  | nil => intro b h; cases h
  | cons c cs ih =>
    intro b h
    unfold bufChunks at h
    split at h
    · exact ih h
    · next x y hx => exact bufPut_err (b := b) (by rw [hx]; exact h)

theorem bufEnv_err {r : DirReader} {fs : HostFs} {src : HostPath} {pol : BufPolicy} {faults : Faults} {e : Err}
    (h : DeviceErr (bufEnv (stdFs r fs src) pol faults) e) : e = .io := by
  rcases h with ⟨off, d, s, h⟩ | ⟨p, x, o, s, h1, h2, h⟩ | ⟨s, h⟩
  · exact bufWrite_err h
  · simp only [bufEnv] at h
    split at h
    · split at h
      · simp only [stdFs, stdCopy] at h
        split at h <;> cases h
        rfl
      · next e' _ hx => cases h; exact bufChunks_err (by rw [hx])
      · cases h
      · cases h
    · next e' _ hx => cases h; exact bufSeek_err (by rw [hx])
    · cases h
    · cases h
  · cases h

theorem stdEntries_err {r : DirReader} {fs : HostFs} {dir : HostPath} {e : Err} : ∀ {ns : List Str},
    stdEntries r fs dir ns = .err e → e = .io := by
  intro ns
  induction ns with
  | nil => intro h; cases h
  | cons n ns ih =>
    intro h
    simp only [stdEntries] at h
    rcases Res.bind_eq_err.1 h with h | ⟨_, _, h⟩
    · unfold stdEntry at h
      split at h
      · cases h; rfl
      · split at h <;> cases h
        rfl
    · rcases Res.bind_eq_err.1 h with h | ⟨_, _, h⟩
      · exact ih h
      · cases h

theorem host_defect {r : DirReader} {fs : HostFs} {src : HostPath} (hr : ReadsHost r fs) (hdir : fs src = some .dir) {e : Err}
    (h : SourceDefect (stdFs r fs src).readDir e) : e = .io ∨ HostDefect r fs src e := by
  obtain ⟨p, hp, h | ⟨l, hl, h⟩⟩ := h
  · left
    simp only [stdFs, stdReadDir] at h
    split at h
    · exact stdEntries_err h
    · cases h; rfl
  · right
    have there : ∀ x ∈ l, fs (src ++ (p ++ [x.name])) ≠ none := by
      intro x hx
      rcases std_entry_host (r := r) (fs := fs) (root := src) ⟨hp, l, hl, hx⟩ with ⟨_, k⟩ | ⟨_, d, k, _⟩ <;> rw [k] <;> simp
    obtain ⟨_, hn, _⟩ := stdReadDir_ok hl
    rcases h with (⟨rfl, x, hx, k⟩ | ⟨rfl, x, hx, k⟩ | ⟨rfl, k⟩ | ⟨rfl, x, hx, k1, k2⟩) | ⟨rfl, k⟩
    · exact .inl ⟨rfl, p, x.name, there x hx, k⟩
    · exact .inr (.inl ⟨rfl, p, x.name, there x hx, k⟩)
    · refine .inr (.inr (.inl ⟨rfl, ?_⟩))
      refine Classical.byContradiction fun hno => k ?_
      have hnd := (hr.1 (src ++ p)).1
      rw [← hn] at hnd
      refine hnd.imp_of_mem fun {a b} ha hb hab hs => hno ?_
      obtain ⟨x, hx, rfl⟩ := List.mem_map.1 ha
      obtain ⟨y, hy, rfl⟩ := List.mem_map.1 hb
      exact ⟨p, x.name, y.name, there x hx, there y hy, hab, hs⟩
    · rcases std_entry_host (r := r) (fs := fs) (root := src) ⟨hp, l, hl, hx⟩ with ⟨k, _⟩ | ⟨_, d, k3, k4⟩
      · rw [k1] at k; cases k
      · exact .inr (.inr (.inr (.inl ⟨rfl, p ++ [x.name], d, k3, by omega⟩)))
    · refine .inr (.inr (.inr (.inr ⟨rfl, p, std_dir_host hdir hp, ?_⟩)))
      unfold FewEntries at k
      rw [← hn, List.map_map]
      exact Nat.lt_of_not_le k

/-- C145.  If `pack` of a directory of the host fails, then the error is one of reading or writing, or `other`, which is given
for an output inside the source; or the host has what the error says, below the packed directory. -/
theorem C145_pack_command (t : Tool) {r : DirReader} {faults : Faults} {cwd : HostPath} {fs : HostFs} {src out : HostPath}
    (hr : ReadsHost r fs) (hdir : fs src = some .dir) {e : Err}
    (h : (cmdPack t (stdFs r) faults cwd fs src (some out)).2 = .err e) :
    e = .io ∨ (e = .other ∧ src <+: out) ∨ HostDefect r fs src e := by
  unfold cmdPack at h
  rw [hdir] at h
  simp only [if_true] at h
  unfold packPathDir at h
  split at h
  · next fs1 ho =>
    simp only at h
    split at h
    · cases h
    · next e' he =>
      cases h
      unfold packFile at he
      simp only at he
      rcases hc : createImage (bufEnv (stdFs r fs src) (cliPolicy t.early) faults) t.fuel ⟨⟨[], 0, [], 0⟩, []⟩ with ⟨x, s'⟩
      rw [hc] at he
      simp only at he
      subst he
      rcases C145_error_is_true hc with k | k
      · rcases host_defect hr hdir k with k | k
        · exact .inl k
        · exact .inr (.inr k)
      · exact .inl (bufEnv_err k)
    · cases h
    · cases h
  · next e' ho =>
    cases h
    unfold packOpen at ho
    rw [hdir] at ho
    simp only at ho
    split at ho
    · next k => cases ho; exact .inr (.inl ⟨rfl, by rw [k.2]; exact List.prefix_refl _⟩)
    · split at ho
      · next k => cases ho; exact .inr (.inl ⟨rfl, List.isPrefixOf_iff_prefix.1 k⟩)
      · split at ho <;> cases ho
        exact .inl rfl
  · cases h
  · cases h

/-- A host with a directory `s` that has files `a` and `A`. -/
def twinFs : HostFs := fun q =>
  if q = [] ∨ q = [['s']] then some .dir
  else if q = [['s'], ['a']] then some (.file [1])
  else if q = [['s'], ['A']] then some (.file [2])
  else none

def twinDom : List HostPath := [[], [['s']], [['s'], ['a']], [['s'], ['A']]]

theorem twin_reads : ReadsHost (listReader twinDom twinFs) twinFs := by
  refine listReader_reads (by decide) (fun q hq => ?_)
  unfold twinFs at hq
  simp only [twinDom, List.mem_cons, List.not_mem_nil, or_false]
  split at hq
  · next k => rcases k with k | k <;> simp [k]
  · split at hq
    · next k => simp [k]
    · split at hq
      · next k => simp [k]
      · exact absurd rfl hq

/-- Packing `s` fails, and the error tells that there are two names that are the same ignoring case. -/
example : ReadsHost (listReader twinDom twinFs) twinFs ∧ twinFs [['s']] = some .dir ∧
    (cmdPack ⟨fun _ _ => false, fun b => [b], 3, 2⟩ (stdFs (listReader twinDom twinFs)) (fun _ => none) [] twinFs [['s']]
      (some [['o']])).2 = .err .duplicateFileName :=
  ⟨twin_reads, by decide, by rfl⟩

end Xdvdfs.Props
