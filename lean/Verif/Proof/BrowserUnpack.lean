import Verif.Proof.BrowserTool
import Verif.Proof.CopyOut
import Verif.Proof.CliPacked
import Verif.Spec.CliPaths
import Verif.Props.Show

/-!
# Unpacking in the browser
-/

namespace Xdvdfs

open Spec

/-! ## Only the chosen folder changes -/

/-- A directory stays a directory, and a file stays a file. -/
def SameKind : Option HostNode → Option HostNode → Prop
  | none, _ => True
  | some .dir, y => y = some .dir
  | some (.file _), y => ∃ d, y = some (.file d)

theorem SameKind.refl (x : Option HostNode) : SameKind x x := by
  cases x with
  | none => trivial
  | some x => cases x with
    | dir => rfl
    | file d => exact ⟨d, rfl⟩

theorem SameKind.trans {x y z : Option HostNode} (h1 : SameKind x y) (h2 : SameKind y z) : SameKind x z := by
  cases x with
  | none => trivial
  | some x => cases x with
    | dir => rw [show y = some .dir from h1] at h2; exact h2
    | file d =>
      obtain ⟨d', rfl⟩ := h1
      exact h2

/-- Everything that differs is strictly below `dest`, nothing is lost and everything is of the kind it was. -/
def WithinFolder (dest : HostPath) (fs fs' : HostFs) : Prop :=
  ∀ q, (fs' q ≠ fs q → ∃ r, r ≠ [] ∧ q = dest ++ r) ∧ SameKind (fs q) (fs' q)

theorem WithinFolder.refl (dest : HostPath) (fs : HostFs) : WithinFolder dest fs fs :=
  fun _ => ⟨fun h => absurd rfl h, .refl _⟩

theorem WithinFolder.trans {dest : HostPath} {a c d : HostFs} (h1 : WithinFolder dest a c) (h2 : WithinFolder dest c d) :
    WithinFolder dest a d := by
  refine fun q => ⟨fun hq => ?_, (h1 q).2.trans (h2 q).2⟩
  by_cases h : c q = a q
  · exact (h2 q).1 (by rw [h]; exact hq)
  · exact (h1 q).1 h

theorem within_set {dest p : HostPath} {n : Str} (hp : dest <+: p) {fs : HostFs} {x : HostNode}
    (hk : SameKind (fs (p ++ [n])) (some x)) : WithinFolder dest fs (fs.set (p ++ [n]) x) := by
  intro q
  by_cases e : q = p ++ [n]
  · refine ⟨fun _ => ?_, by rw [e, set_same]; exact hk⟩
    obtain ⟨r, rfl⟩ := hp
    exact ⟨r ++ [n], by simp, by rw [e, List.append_assoc]⟩
  · rw [set_other e]
    exact ⟨fun h => absurd rfl h, .refl _⟩

variable {b : Browser} {src : HostPath} {img : Bytes} {base wfuel : Nat}

theorem webCreateDir_within {fs fs' : HostFs} {p dest : HostPath} {n : Str} (hp : dest <+: p)
    (h : webCreateDir b fs p n = .ok fs') : WithinFolder dest fs fs' := by
  unfold webCreateDir at h
  split at h
  · split at h
    · cases h; exact .refl _ _
    · cases h
    · next hx =>
      split at h
      · cases h
      · cases h; exact within_set hp (by rw [hx]; trivial)
  · cases h

theorem webCreateFile_within {fs fs' : HostFs} {p dest : HostPath} {n : Str} (hp : dest <+: p)
    (h : webCreateFile b fs p n = .ok fs') : WithinFolder dest fs fs' := by
  unfold webCreateFile at h
  split at h
  · split at h
    · cases h
    · cases h; exact .refl _ _
    · next hx =>
      split at h
      · cases h
      · cases h; exact within_set hp (by rw [hx]; trivial)
  · cases h

theorem webWriteWhole_ok {fs fs' : HostFs} {k : Nat} {p : HostPath} {data : Bytes}
    (h : webWriteWhole b fs k p data = .ok fs') : fs' = fs.set p (.file data) ∧ canWrite b fs p = true := by
  unfold webWriteWhole at h
  split at h
  · next hc =>
    cases h
    simp only [Bool.and_eq_true] at hc
    refine ⟨?_, hc.1.1⟩
    simp [streamWrite]
  · cases h

theorem webUnpackFile_within {fs : HostFs} {p dest : HostPath} {d : DirEnt} {k : Nat} (hp : dest <+: p) :
    WithinFolder dest fs (webUnpackFile b src img base k p d fs).2 := by
  unfold webUnpackFile
  cases hc : webCreateFile b fs p d.nameStr with
  | ok fs1 =>
    have h1 := webCreateFile_within hp hc
    simp only
    split
    · exact h1
    · cases hs : webSlice fs1 src img base d.node.dirent with
      | ok data =>
        simp only
        cases hw : webWriteWhole b fs1 k (p ++ [d.nameStr]) data with
        | ok fs2 =>
          obtain ⟨rfl, hcan⟩ := webWriteWhole_ok hw
          refine h1.trans (within_set hp ?_)
          unfold canWrite at hcan
          cases hx : fs1 (p ++ [d.nameStr]) with
          | none => trivial
          | some x =>
            cases x with
            | dir => rw [hx] at hcan; simp at hcan
            | file y => exact ⟨_, rfl⟩
        | err e => exact h1
        | panic => exact h1
        | hang => exact h1
      | err e => exact h1
      | panic => exact h1
      | hang => exact h1
  | err e => exact .refl _ _
  | panic => exact .refl _ _
  | hang => exact .refl _ _

theorem webUnpackLoop_within {dest : HostPath} : ∀ (fuel : Nat) (stack : List (HostPath × DirEnt)) (count k : Nat)
    (fs : HostFs), (∀ x ∈ stack, dest <+: x.1) →
    WithinFolder dest fs (webUnpackLoop b src img base wfuel fuel stack count k fs).2.2 := by
  intro fuel
  induction fuel with
  | zero => intro stack count k fs _; cases stack <;> exact .refl _ _
  | succ fuel ih =>
    intro stack count k fs hst
    cases stack with
    | nil => exact .refl _ _
    | cons x stack =>
      obtain ⟨parent, d⟩ := x
      have hp : dest <+: parent := hst _ (List.mem_cons_self ..)
      have hrest : ∀ x ∈ stack, dest <+: x.1 := fun x hx => hst x (List.mem_cons_of_mem _ hx)
      unfold webUnpackLoop
      cases d.node.dirent.direntTable with
      | some tab =>
        simp only
        cases hc : webCreateDir b fs parent d.nameStr with
        | ok fs1 =>
          have h1 := webCreateDir_within hp hc
          simp only
          cases walkDirentTree (offsetDev (webDev b fs1 src) base) tab wfuel with
          | ok entries =>
            simp only
            refine h1.trans (ih _ _ _ _ ?_)
            intro y hy
            rcases List.mem_append.1 hy with hy | hy
            · rw [List.mem_reverse] at hy
              obtain ⟨e, _, rfl⟩ := List.mem_map.1 hy
              exact hp.trans (List.prefix_append _ _)
            · exact hrest y hy
          | err e => exact h1
          | panic => exact h1
          | hang => exact h1
        | err e => exact .refl _ _
        | panic => exact .refl _ _
        | hang => exact .refl _ _
      | none =>
        simp only
        have h1 : WithinFolder dest fs (webUnpackFile b src img base k parent d fs).2 := webUnpackFile_within hp
        cases hu : webUnpackFile b src img base k parent d fs with
        | mk r fs1 =>
        rw [hu] at h1
        cases r with
        | ok rep =>
          cases rep with
          | true => exact h1.trans (ih _ _ _ _ hrest)
          | false => exact h1.trans (ih _ _ _ _ hrest)
        | err e => exact h1
        | panic => exact h1
        | hang => exact h1

theorem browserUnpack_within (b : Browser) (t : Tool) (fs : HostFs) (src dest : HostPath) :
    WithinFolder dest fs (browserUnpack b t fs src dest).host := by
  unfold browserUnpack
  cases getFile b fs src with
  | none => exact .refl _ _
  | some img =>
    simp only
    cases offsetNew (webDev b fs src) with
    | ok base =>
      simp only
      cases readVolume (offsetDev (webDev b fs src) base) with
      | ok vol =>
        simp only
        cases walkDirentTree (offsetDev (webDev b fs src) base) vol.root t.wfuel with
        | ok entries =>
          refine webUnpackLoop_within _ _ _ _ _ ?_
          intro x hx
          rw [List.mem_reverse] at hx
          obtain ⟨e, _, rfl⟩ := List.mem_map.1 hx
          exact List.prefix_refl _
        | err e => exact .refl _ _
        | panic => exact .refl _ _
        | hang => exact .refl _ _
      | err e => exact .refl _ _
      | panic => exact .refl _ _
      | hang => exact .refl _ _
    | err e => exact .refl _ _
    | panic => exact .refl _ _
    | hang => exact .refl _ _

/-! ## The tree is restored -/

/-- The table at `tab` lists the directory at `q`. -/
def ListsDir (dev : Dev) (N : Nat) (rd : ReadDir) (Loc : Path → DirEnt → Prop) (q : Path) (tab : Region) : Prop :=
  ∃ ds, (∀ fuel, N < fuel → walkDirentTree dev tab fuel = .ok ds) ∧ (∀ d ∈ ds, Loc q d) ∧
    (∀ e, EntryIn rd q e → ∃ d ∈ ds, d.nameStr = e.name) ∧ (ds.map (·.nameStr)).Nodup

/-- The entries `d` with `Loc p d` are those of the tree `rd`, and can be read. -/
structure Walkable (dev : Dev) (N : Nat) (rd : ReadDir) (content : Path → Bytes) (Loc : Path → DirEnt → Prop) : Prop where
  entry : ∀ {p d}, Loc p d → ∃ e, EntryIn rd p e ∧ e.name = d.nameStr ∧ e.isDir = d.node.dirent.isDirectory
  dir : ∀ {p d}, Loc p d → d.node.dirent.isDirectory = true →
    ListsDir dev N rd Loc (p ++ [d.nameStr]) d.node.dirent.data
  file : ∀ {p d}, Loc p d → d.node.dirent.isDirectory = false →
    readDataAll dev d.node.dirent = .ok (content (p ++ [d.nameStr]))
  unique : ∀ {p e e'}, EntryIn rd p e → EntryIn rd p e' → e.name = e'.name → e = e'

/-- What an entry is expected to be on the host after it was unpacked over `fs0`: an empty file is only created. -/
def webNode (fs0 : HostFs) (dest : HostPath) (content : Path → Bytes) (p : Path) (e : FileEntry) : HostNode :=
  if e.isDir then .dir
  else if content (p ++ [e.name]) = [] then
    match fs0 (dest ++ p ++ [e.name]) with
    | some (.file old) => .file old
    | _ => .file []
  else .file (content (p ++ [e.name]))

/-- The state of unpacking: the entries in `done` are in place, those in `S` are on the stack. -/
structure WebInv (fs0 : HostFs) (dest : HostPath) (rd : ReadDir) (content : Path → Bytes) (done S : List Path)
    (fs : HostFs) : Prop where
  nodup : (done ++ S).Nodup
  entry : ∀ q ∈ done ++ S, ∃ p e, EntryIn rd p e ∧ q = p ++ [e.name]
  parent : ∀ p n, p ++ [n] ∈ done ++ S → p = [] ∨ p ∈ done
  closed : ∀ p e, EntryIn rd p e → p = [] ∨ p ∈ done → p ++ [e.name] ∈ done ++ S
  placed : ∀ p e, EntryIn rd p e → p ++ [e.name] ∈ done →
    fs (dest ++ p ++ [e.name]) = some (webNode fs0 dest content p e)
  other : ∀ q, (∀ r ∈ done, q ≠ dest ++ r) → fs q = fs0 q

theorem entryIn_dir {rd : ReadDir} {p : Path} {n : Str} (h : DirOf rd (p ++ [n])) :
    ∃ e, EntryIn rd p e ∧ e.isDir = true ∧ e.name = n := by
  generalize hq : p ++ [n] = q at h
  cases h with
  | root => simp at hq
  | @sub p' l e h1 h2 h3 h4 =>
    obtain ⟨rfl, hn⟩ := List.append_inj' hq rfl
    simp only [List.cons.injEq, and_true] at hn
    exact ⟨e, ⟨h1, l, h2, h3⟩, h4, hn.symm⟩

theorem WebInv.step {fs0 fs fs' : HostFs} {dest : HostPath} {rd : ReadDir} {content : Path → Bytes} {done S C : List Path}
    {p : Path} {e : FileEntry} (h : WebInv fs0 dest rd content done ((p ++ [e.name]) :: S) fs) (he : EntryIn rd p e)
    (huniq : ∀ {p e e'}, EntryIn rd p e → EntryIn rd p e' → e.name = e'.name → e = e')
    (hC : C.Nodup) (hC1 : ∀ c ∈ C, ∃ e', EntryIn rd (p ++ [e.name]) e' ∧ c = p ++ [e.name] ++ [e'.name])
    (hC2 : ∀ e', EntryIn rd (p ++ [e.name]) e' → p ++ [e.name] ++ [e'.name] ∈ C)
    (hnew : fs' (dest ++ p ++ [e.name]) = some (webNode fs0 dest content p e))
    (hold : ∀ q, q ≠ dest ++ p ++ [e.name] → fs' q = fs q) :
    WebInv fs0 dest rd content (done ++ [p ++ [e.name]]) (C ++ S) fs' := by
  have hnd := h.nodup
  have hmem : ∀ x, x ∈ done ++ [p ++ [e.name]] ++ (C ++ S) ↔ x ∈ C ∨ x ∈ done ++ (p ++ [e.name]) :: S := by
    intro x
    simp only [List.mem_append, List.mem_cons, List.not_mem_nil, or_false]
    constructor
    · rintro ((h | h) | h | h) <;> simp [h]
    · rintro (h | h | h | h) <;> simp [h]
  have hq : p ++ [e.name] ∉ done := by
    intro hm
    rw [List.nodup_append] at hnd
    exact hnd.2.2 _ hm _ (List.mem_cons_self ..) rfl
  have hfresh : ∀ c ∈ C, c ∉ done ++ (p ++ [e.name]) :: S := by
    intro c hc hm
    obtain ⟨e', he', rfl⟩ := hC1 c hc
    rcases h.parent _ _ hm with h0 | h0
    · simp at h0
    · exact hq h0
  refine ⟨?_, ?_, ?_, ?_, ?_, ?_⟩
  · have hperm : (done ++ [p ++ [e.name]] ++ (C ++ S)).Perm (C ++ (done ++ (p ++ [e.name]) :: S)) := by
      have h1 : (done ++ [p ++ [e.name]] ++ C ++ S).Perm (C ++ (done ++ [p ++ [e.name]]) ++ S) :=
        List.perm_append_comm.append_right S
      simpa using h1
    rw [hperm.nodup_iff, List.nodup_append]
    refine ⟨hC, hnd, ?_⟩
    rintro a ha b hb rfl
    exact hfresh a ha hb
  · intro q hq'
    rcases (hmem q).1 hq' with h1 | h1
    · obtain ⟨e', he', rfl⟩ := hC1 q h1
      exact ⟨_, e', he', rfl⟩
    · exact h.entry q h1
  · intro p' n hm
    rcases (hmem _).1 hm with h1 | h1
    · obtain ⟨e', _, heq⟩ := hC1 _ h1
      obtain ⟨rfl, _⟩ := List.append_inj' heq rfl
      exact .inr (by simp)
    · rcases h.parent p' n h1 with h2 | h2
      · exact .inl h2
      · exact .inr (by simp [h2])
  · intro p' e' he' hp'
    rw [hmem]
    rcases hp' with h1 | h1
    · exact .inr (h.closed p' e' he' (.inl h1))
    · rcases List.mem_append.1 h1 with h1 | h1
      · exact .inr (h.closed p' e' he' (.inr h1))
      · simp only [List.mem_singleton] at h1
        subst h1
        exact .inl (hC2 e' he')
  · intro p' e' he' hm
    by_cases heq : p' ++ [e'.name] = p ++ [e.name]
    · obtain ⟨rfl, hn⟩ := List.append_inj' heq rfl
      simp only [List.cons.injEq, and_true] at hn
      rw [huniq he' he hn]
      exact hnew
    · rw [hold _ (by
        intro hx
        rw [List.append_assoc, List.append_assoc] at hx
        exact heq (List.append_cancel_left hx))]
      refine h.placed p' e' he' ?_
      rcases List.mem_append.1 hm with h1 | h1
      · exact h1
      · exact absurd (List.mem_singleton.1 h1) heq
  · intro q hq'
    rw [hold q (by
      have := hq' (p ++ [e.name]) (by simp)
      rwa [← List.append_assoc] at this)]
    exact h.other q (fun r hr => hq' r (by simp [hr]))

theorem webCreateDir_ok {fs fs' : HostFs} {p : HostPath} {n : Str} (h : webCreateDir b fs p n = .ok fs') :
    fs' (p ++ [n]) = some .dir ∧ ∀ q, q ≠ p ++ [n] → fs' q = fs q := by
  unfold webCreateDir at h
  split at h
  · split at h
    · next hd => cases h; exact ⟨hd, fun _ _ => rfl⟩
    · cases h
    · split at h
      · cases h
      · cases h; exact ⟨set_same _ _ _, fun q hq => set_other hq⟩
  · cases h

theorem webCreateDir_works (hc : b.noCreate = fun _ => false) {fs : HostFs} {p : HostPath} {n : Str} (hn : webName n = true)
    (hp : fs p = some .dir) (hx : fs (p ++ [n]) = none ∨ fs (p ++ [n]) = some .dir) :
    ∃ fs', webCreateDir b fs p n = .ok fs' := by
  unfold webCreateDir
  rw [if_pos hn]
  rcases hx with hx | hx
  · rw [hx]
    simp only [hc, hp, Bool.false_eq_true, ne_eq, not_true_eq_false, or_self, if_false]
    exact ⟨_, rfl⟩
  · rw [hx]
    exact ⟨_, rfl⟩

theorem webCreateFile_ok {fs fs' : HostFs} {p : HostPath} {n : Str} (h : webCreateFile b fs p n = .ok fs') :
    ((∃ old, fs (p ++ [n]) = some (.file old)) ∧ fs' = fs) ∨
      (fs (p ++ [n]) = none ∧ fs' = fs.set (p ++ [n]) (.file [])) := by
  unfold webCreateFile at h
  split at h
  · split at h
    · cases h
    · next old hd => cases h; exact .inl ⟨⟨old, hd⟩, rfl⟩
    · next hd =>
      split at h
      · cases h
      · cases h; exact .inr ⟨hd, rfl⟩
  · cases h

theorem webCreateFile_works (hc : b.noCreate = fun _ => false) {fs : HostFs} {p : HostPath} {n : Str} (hn : webName n = true)
    (hp : fs p = some .dir) (hx : fs (p ++ [n]) ≠ some .dir) : ∃ fs', webCreateFile b fs p n = .ok fs' := by
  unfold webCreateFile
  rw [if_pos hn]
  cases hy : fs (p ++ [n]) with
  | none =>
    simp only [hc, hp, Bool.false_eq_true, ne_eq, not_true_eq_false, or_self, if_false]
    exact ⟨_, rfl⟩
  | some x =>
    cases x with
    | dir => exact absurd hy hx
    | file d => exact ⟨_, rfl⟩

theorem readDataAll_size {dev : Dev} {d : DiskData} {x : Bytes} (h : readDataAll dev d = .ok x) :
    x = [] ↔ d.data.size = 0 := by
  unfold readDataAll at h
  split at h
  · next h0 => cases h; simp [h0]
  · next h0 =>
    obtain ⟨off, _, h⟩ := Res.bind_eq_ok.1 h
    have hl := dev.read_len _ _ _ h
    constructor
    · rintro rfl
      exact absurd (UInt32.toNat_inj.1 (by simpa using hl.symm)) h0
    · intro h1; exact absurd h1 h0

theorem webSlice_ok {fs : HostFs} {d : DiskData} {x : Bytes} (h : readDataAll (offsetDev (fileDev img) base) d = .ok x)
    (h0 : d.data.size ≠ 0) (hs : fs src = some (.file img)) : webSlice fs src img base d = .ok x := by
  unfold readDataAll at h
  rw [if_neg h0] at h
  obtain ⟨off, ho, h⟩ := Res.bind_eq_ok.1 h
  unfold webSlice
  rw [ho]
  simp only [if_pos hs]
  simp only [offsetDev, offsetRead] at h
  split at h
  · simp only [fileDev, fileRead] at h
    have hs : d.data.size.toNat ≠ 0 := fun e => h0 (UInt32.toNat_inj.1 e)
    rw [if_neg hs] at h
    split at h
    · rw [Nat.add_comm]; exact h
    · cases h
  · cases h

/-- Unpacking one file. -/
theorem webUnpackFile_ok {fs fs' : HostFs} {p : HostPath} {d : DirEnt} {k : Nat} {x : Bytes} {rep : Bool}
    (hx : readDataAll (offsetDev (fileDev img) base) d.node.dirent = .ok x) (hs : fs src = some (.file img))
    (hne : src ≠ p ++ [d.nameStr]) (h : webUnpackFile b src img base k p d fs = (.ok rep, fs')) :
    (rep = true ↔ x ≠ []) ∧ (∀ q, q ≠ p ++ [d.nameStr] → fs' q = fs q) ∧
      fs' (p ++ [d.nameStr]) = some (if x = [] then
        match fs (p ++ [d.nameStr]) with
        | some (.file old) => .file old
        | _ => .file []
      else .file x) := by
  have hz := readDataAll_size hx
  unfold webUnpackFile at h
  cases hc : webCreateFile b fs p d.nameStr with
  | ok fs1 =>
    rw [hc] at h
    simp only at h
    have hoth : ∀ q, q ≠ p ++ [d.nameStr] → fs1 q = fs q := by
      intro q hq
      rcases webCreateFile_ok hc with ⟨_, rfl⟩ | ⟨_, rfl⟩
      · rfl
      · exact set_other hq
    split at h
    · next h0 =>
      cases h
      have hx0 := hz.2 h0
      refine ⟨by simp [hx0], hoth, ?_⟩
      rw [if_pos hx0]
      rcases webCreateFile_ok hc with ⟨⟨old, ho⟩, rfl⟩ | ⟨ho, rfl⟩
      · rw [ho]
      · rw [ho, set_same]
    · next h0 =>
      have hx0 : x ≠ [] := fun e => h0 (hz.1 e)
      rw [webSlice_ok hx h0 (by rw [hoth _ hne]; exact hs)] at h
      simp only at h
      cases hw : webWriteWhole b fs1 k (p ++ [d.nameStr]) x with
      | ok fs2 =>
        rw [hw] at h
        cases h
        obtain ⟨rfl, _⟩ := webWriteWhole_ok hw
        refine ⟨by simp [hx0], fun q hq => by rw [set_other hq]; exact hoth q hq, ?_⟩
        rw [if_neg hx0, set_same]
      | err e => rw [hw] at h; cases h
      | panic => rw [hw] at h; cases h
      | hang => rw [hw] at h; cases h
  | err e => rw [hc] at h; cases h
  | panic => rw [hc] at h; cases h
  | hang => rw [hc] at h; cases h

theorem webUnpackFile_works (hg : Grants b) {fs : HostFs} {p : HostPath} {d : DirEnt} {k : Nat} {x : Bytes}
    (hx : readDataAll (offsetDev (fileDev img) base) d.node.dirent = .ok x) (hs : fs src = some (.file img))
    (hne : src ≠ p ++ [d.nameStr]) (hn : webName d.nameStr = true) (hp : fs p = some .dir)
    (hd : fs (p ++ [d.nameStr]) ≠ some .dir) : ∃ rep fs', webUnpackFile b src img base k p d fs = (.ok rep, fs') := by
  obtain ⟨fs1, hc⟩ := webCreateFile_works (b := b) (funext fun q => (hg.1 q).2.2.1) hn hp hd
  unfold webUnpackFile
  rw [hc]
  simp only
  split
  · exact ⟨_, _, rfl⟩
  · next h0 =>
    have hfile : ∃ y, fs1 (p ++ [d.nameStr]) = some (.file y) := by
      rcases webCreateFile_ok hc with ⟨⟨old, ho⟩, rfl⟩ | ⟨_, rfl⟩
      · exact ⟨old, ho⟩
      · exact ⟨[], set_same _ _ _⟩
    have hs1 : fs1 src = some (.file img) := by
      rcases webCreateFile_ok hc with ⟨_, rfl⟩ | ⟨_, rfl⟩
      · exact hs
      · rw [set_other hne]; exact hs
    obtain ⟨y, hy⟩ := hfile
    rw [webSlice_ok hx h0 hs1]
    simp only
    have hw : ∃ fs2, webWriteWhole b fs1 k (p ++ [d.nameStr]) x = .ok fs2 := by
      unfold webWriteWhole canWrite
      rw [hy, (hg.1 _).2.2.2.1, (hg.1 _).2.2.2.2, hg.2]
      exact ⟨_, rfl⟩
    obtain ⟨fs2, hw⟩ := hw
    rw [hw]
    exact ⟨_, _, rfl⟩

/-! ## The loop -/

/-- The two numbers of the bar, after one more report. -/
def barStep (x : Nat × Nat) : Progress → Nat × Nat
  | .fileCount n => (n, x.2)
  | .fileAdded _ _ => (x.1, x.2 + 1)
  | _ => x

/-- Whatever the image is, never more entries are reported than were counted. -/
theorem webUnpackLoop_sense : ∀ (fuel : Nat) (stack : List (HostPath × DirEnt)) (count k a : Nat) (fs : HostFs),
    a + stack.length ≤ count → ∀ j,
    (((webUnpackLoop b src img base wfuel fuel stack count k fs).2.1.take j).foldl barStep (count, a)).2 ≤
      (((webUnpackLoop b src img base wfuel fuel stack count k fs).2.1.take j).foldl barStep (count, a)).1 := by
  intro fuel
  have nil : ∀ (count a : Nat) (j : Nat), a ≤ count → ((([] : List Progress).take j).foldl barStep (count, a)).2 ≤
      ((([] : List Progress).take j).foldl barStep (count, a)).1 := by
    intro count a j h
    simpa using h
  induction fuel with
  | zero =>
    intro stack count k a fs h j
    cases stack <;> exact nil _ _ _ (by simp at h; omega)
  | succ fuel ih =>
    intro stack count k a fs h j
    cases stack with
    | nil => exact nil _ _ _ (by simp at h; omega)
    | cons x stack =>
      obtain ⟨parent, d⟩ := x
      simp only [List.length_cons] at h
      have hle : a ≤ count := by omega
      unfold webUnpackLoop
      cases d.node.dirent.direntTable with
      | some tab =>
        simp only
        cases webCreateDir b fs parent d.nameStr with
        | ok fs1 =>
          simp only
          cases walkDirentTree (offsetDev (webDev b fs1 src) base) tab wfuel with
          | ok entries =>
            simp only
            match j with
            | 0 => simpa using hle
            | 1 => simp [barStep]; omega
            | j + 2 =>
              simp only [List.take_succ_cons, List.foldl_cons, barStep]
              refine ih _ _ _ _ _ ?_ j
              simp only [List.length_append, List.length_reverse, List.length_map]
              omega
          | err e => exact nil _ _ _ hle
          | panic => exact nil _ _ _ hle
          | hang => exact nil _ _ _ hle
        | err e => exact nil _ _ _ hle
        | panic => exact nil _ _ _ hle
        | hang => exact nil _ _ _ hle
      | none =>
        simp only
        cases hu : webUnpackFile b src img base k parent d fs with
        | mk r fs1 =>
        cases r with
        | ok rep =>
          cases rep with
          | true =>
            simp only
            match j with
            | 0 => simpa using hle
            | j + 1 =>
              simp only [List.take_succ_cons, List.foldl_cons, barStep]
              exact ih _ _ _ _ _ (by omega) j
          | false => exact ih _ _ _ _ _ (by omega) j
        | err e => exact nil _ _ _ hle
        | panic => exact nil _ _ _ hle
        | hang => exact nil _ _ _ hle

/-- The number of entries only grows. -/
theorem webUnpackLoop_counts : ∀ (fuel : Nat) (stack : List (HostPath × DirEnt)) (count k a : Nat) (fs : HostFs),
    count ≤ ((webUnpackLoop b src img base wfuel fuel stack count k fs).2.1.foldl barStep (count, a)).1 ∧
    ∀ n, .fileCount n ∈ (webUnpackLoop b src img base wfuel fuel stack count k fs).2.1 →
      n ≤ ((webUnpackLoop b src img base wfuel fuel stack count k fs).2.1.foldl barStep (count, a)).1 := by
  intro fuel
  have nil : ∀ (count a : Nat), count ≤ (([] : List Progress).foldl barStep (count, a)).1 ∧
      ∀ n, .fileCount n ∈ ([] : List Progress) → n ≤ (([] : List Progress).foldl barStep (count, a)).1 :=
    fun _ _ => ⟨Nat.le_refl _, fun _ h => by simp at h⟩
  induction fuel with
  | zero => intro stack count k a fs; cases stack <;> exact nil _ _
  | succ fuel ih =>
    intro stack count k a fs
    cases stack with
    | nil => exact nil _ _
    | cons x stack =>
      obtain ⟨parent, d⟩ := x
      unfold webUnpackLoop
      cases d.node.dirent.direntTable with
      | some tab =>
        simp only
        cases webCreateDir b fs parent d.nameStr with
        | ok fs1 =>
          simp only
          cases walkDirentTree (offsetDev (webDev b fs1 src) base) tab wfuel with
          | ok entries =>
            simp only [List.foldl_cons, barStep]
            have h := ih ((entries.map (fun e => (parent ++ [d.nameStr], e))).reverse ++ stack) (count + entries.length) k
              (a + 1) fs1
            refine ⟨by omega, fun n hn => ?_⟩
            simp only [List.mem_cons, Progress.fileCount.injEq, reduceCtorEq, false_or] at hn
            rcases hn with rfl | hn
            · exact h.1
            · exact h.2 n hn
          | err e => exact nil _ _
          | panic => exact nil _ _
          | hang => exact nil _ _
        | err e => exact nil _ _
        | panic => exact nil _ _
        | hang => exact nil _ _
      | none =>
        simp only
        cases hu : webUnpackFile b src img base k parent d fs with
        | mk r fs1 =>
        cases r with
        | ok rep =>
          cases rep with
          | true =>
            simp only [List.foldl_cons, barStep]
            have h := ih stack count (k + 1) (a + 1) fs1
            refine ⟨h.1, fun n hn => ?_⟩
            simp only [List.mem_cons, reduceCtorEq, false_or] at hn
            exact h.2 n hn
          | false => exact ih _ _ _ _ _
        | err e => exact nil _ _
        | panic => exact nil _ _
        | hang => exact nil _ _

/-- No entry of the tree is the image itself, and what is at the place of an entry is of its kind. -/
structure RoomFor (fs0 : HostFs) (src dest : HostPath) (rd : ReadDir) : Prop where
  base : fs0 dest = some .dir
  name : ∀ p e, EntryIn rd p e → webName e.name = true
  kind : ∀ p e, EntryIn rd p e → fs0 (dest ++ p ++ [e.name]) = none ∨
    (fs0 (dest ++ p ++ [e.name]) = some .dir ∧ e.isDir = true) ∨
    ((∃ x, fs0 (dest ++ p ++ [e.name]) = some (.file x)) ∧ e.isDir = false)

theorem WebInv.undone {fs0 fs : HostFs} {dest : HostPath} {rd : ReadDir} {content : Path → Bytes} {done S : List Path}
    {q : Path} (h : WebInv fs0 dest rd content done (q :: S) fs) : fs (dest ++ q) = fs0 (dest ++ q) := by
  refine h.other _ (fun r hr heq => ?_)
  have hnd := h.nodup
  rw [List.nodup_append] at hnd
  exact hnd.2.2 _ hr _ (List.mem_cons_self ..) (List.append_cancel_left heq).symm

theorem WebInv.parentDir {fs0 fs : HostFs} {dest : HostPath} {rd : ReadDir} {content : Path → Bytes} {done S : List Path}
    {p : Path} {e : FileEntry} (h : WebInv fs0 dest rd content done ((p ++ [e.name]) :: S) fs) (he : EntryIn rd p e)
    (hb : fs0 dest = some .dir) : fs (dest ++ p) = some .dir := by
  rcases h.parent p e.name (by simp) with rfl | hp
  · rw [List.append_nil, h.other dest ?_]
    · exact hb
    · intro r hr heq
      obtain ⟨p', e', _, rfl⟩ := h.entry r (by simp [hr])
      have := congrArg List.length heq
      simp at this
  · obtain ⟨p', e', _, hq⟩ := h.entry p (by simp [hp])
    subst hq
    obtain ⟨e2, he2, hdir, hn⟩ := entryIn_dir he.1
    rw [← hn] at hp
    have := h.placed p' e2 he2 hp
    rw [hn, List.append_assoc] at this
    rw [this]
    simp [webNode, hdir]

/-- What the loop does to a tree: when it ends well every entry is in place, and it ends well when the browser grants
everything and there is room. -/
theorem webUnpackLoop_spec {N : Nat} {rd : ReadDir} {content : Path → Bytes} {Loc : Path → DirEnt → Prop}
    (W : Walkable (offsetDev (fileDev img) base) N rd content Loc) {fs0 : HostFs} {dest : HostPath}
    (hsrc : fs0 src = some (.file img)) (hread : b.noRead src = false)
    (hself : ∀ p e, EntryIn rd p e → src ≠ dest ++ p ++ [e.name]) (all : List Path)
    (hall : ∀ p e, EntryIn rd p e → p ++ [e.name] ∈ all) (R : Path → Bool)
    (hR : ∀ p e, EntryIn rd p e → (R (p ++ [e.name]) = true ↔ (e.isDir = true ∨ content (p ++ [e.name]) ≠ []))) :
    ∀ (fuel : Nat) (X : List (Path × DirEnt)) (count k : Nat) (fs : HostFs) (done : List Path),
      (∀ x ∈ X, Loc x.1 x.2) →
      WebInv fs0 dest rd content done (X.map (fun x => x.1 ++ [x.2.nameStr])) fs →
      ((webUnpackLoop b src img base wfuel fuel (X.map (fun x => (dest ++ x.1, x.2))) count k fs).1 = .ok () →
        ∃ new, WebInv fs0 dest rd content (done ++ new) []
          (webUnpackLoop b src img base wfuel fuel (X.map (fun x => (dest ++ x.1, x.2))) count k fs).2.2 ∧
          (count = done.length + X.length → ∀ a,
            (webUnpackLoop b src img base wfuel fuel (X.map (fun x => (dest ++ x.1, x.2))) count k fs).2.1.foldl barStep
              (count, a) = ((done ++ new).length, a + new.countP R))) ∧
      (Grants b → RoomFor fs0 src dest rd → N < wfuel → all.length ≤ done.length + fuel →
        (webUnpackLoop b src img base wfuel fuel (X.map (fun x => (dest ++ x.1, x.2))) count k fs).1 = .ok ()) := by
  intro fuel
  induction fuel with
  | zero =>
    intro X count k fs done hX hinv
    cases X with
    | nil =>
      refine ⟨fun _ => ⟨[], by simpa [webUnpackLoop] using hinv, fun hc a => ?_⟩, fun _ _ _ _ => rfl⟩
      simp only [List.length_nil, Nat.add_zero] at hc
      simp [webUnpackLoop, hc]
    | cons x X =>
      refine ⟨fun h => by simp [webUnpackLoop] at h, fun _ _ _ hl => ?_⟩
      exfalso
      have hsub : (done ++ ((x :: X).map (fun x => x.1 ++ [x.2.nameStr]))).length ≤ all.length := by
        refine hinv.nodup.length_le_of_subset ?_
        intro q hq
        obtain ⟨p, e, he, rfl⟩ := hinv.entry q hq
        exact hall p e he
      simp at hsub
      omega
  | succ fuel ih =>
    intro X count k fs done hX hinv
    cases X with
    | nil =>
      refine ⟨fun _ => ⟨[], by simpa [webUnpackLoop] using hinv, fun hc a => ?_⟩, fun _ _ _ _ => rfl⟩
      simp only [List.length_nil, Nat.add_zero] at hc
      simp [webUnpackLoop, hc]
    | cons x X =>
      obtain ⟨p, d⟩ := x
      have hloc : Loc p d := hX (p, d) (List.mem_cons_self ..)
      have hXs : ∀ x ∈ X, Loc x.1 x.2 := fun x hx => hX x (List.mem_cons_of_mem _ hx)
      obtain ⟨e, he, hname, hisd⟩ := W.entry hloc
      simp only [List.map_cons] at hinv ⊢
      rw [← hname] at hinv
      have hne := hself p e he
      have hsrc1 : fs src = some (.file img) := by
        rw [hinv.other src, hsrc]
        intro r hr
        obtain ⟨p', e', he', rfl⟩ := hinv.entry r (by simp [hr])
        have := hself p' e' he'
        rwa [← List.append_assoc]
      have hpd : fs0 dest = some .dir → fs (dest ++ p) = some .dir := hinv.parentDir he
      have hun : fs (dest ++ p ++ [e.name]) = fs0 (dest ++ p ++ [e.name]) := by
        rw [List.append_assoc]; exact hinv.undone
      unfold webUnpackLoop
      cases ht : d.node.dirent.direntTable with
      | some tab =>
        simp only
        have hdir := direntTable_isDir ht
        have htab : tab = d.node.dirent.data := by
          simp only [DiskData.direntTable, hdir, if_true, Option.some.injEq] at ht
          exact ht.symm
        subst htab
        rw [hdir] at hisd
        obtain ⟨ds, hwalk, hds, hdsall, hdsn⟩ := W.dir hloc hdir
        rw [← hname] at hds hdsall ⊢
        have hok : ∀ fs1, webCreateDir b fs (dest ++ p) e.name = .ok fs1 →
            offsetDev (webDev b fs1 src) base = offsetDev (fileDev img) base ∧
            WebInv fs0 dest rd content (done ++ [p ++ [e.name]])
              (((ds.map (fun c => (p ++ [e.name], c))).reverse ++ X).map (fun x => x.1 ++ [x.2.nameStr])) fs1 := by
          intro fs1 hc
          obtain ⟨hc1, hc2⟩ := webCreateDir_ok hc
          refine ⟨?_, ?_⟩
          · rw [webDev_file (by rw [hc2 _ hne]; exact hsrc1) hread]
          · rw [List.map_append]
            refine hinv.step he W.unique ?_ ?_ ?_ ?_ hc2
            · rw [List.map_reverse, List.map_map, (List.reverse_perm _).nodup_iff]
              have : ((fun x : Path × DirEnt => x.1 ++ [x.2.nameStr]) ∘ fun c : DirEnt => (p ++ [e.name], c)) =
                  (fun n => p ++ [e.name] ++ [n]) ∘ (fun c : DirEnt => c.nameStr) := rfl
              rw [this, ← List.map_map]
              refine List.Pairwise.map _ ?_ hdsn
              intro a b hab heq
              exact hab (by simpa using heq)
            · intro c hc'
              rw [List.map_reverse, List.map_map, List.mem_reverse] at hc'
              obtain ⟨c', hcm, rfl⟩ := List.mem_map.1 hc'
              obtain ⟨e', he', hn', _⟩ := W.entry (hds c' hcm)
              exact ⟨e', he', by simp [hn']⟩
            · intro e' he'
              obtain ⟨c', hc', hn'⟩ := hdsall e' he'
              rw [List.map_reverse, List.map_map, List.mem_reverse]
              exact List.mem_map.2 ⟨c', hc', by simp [hn']⟩
            · rw [hc1]; simp [webNode, hisd]
        have hX' : ∀ x ∈ (ds.map (fun c => (p ++ [e.name], c))).reverse ++ X, Loc x.1 x.2 := by
          intro x hx
          rcases List.mem_append.1 hx with hx | hx
          · rw [List.mem_reverse] at hx
            obtain ⟨c, hc, rfl⟩ := List.mem_map.1 hx
            exact hds c hc
          · exact hXs x hx
        have hstack : (ds.map (fun c => (dest ++ p ++ [e.name], c))).reverse ++ X.map (fun x => (dest ++ x.1, x.2)) =
            ((ds.map (fun c => (p ++ [e.name], c))).reverse ++ X).map (fun x => (dest ++ x.1, x.2)) := by
          simp [List.map_reverse]
        cases hc : webCreateDir b fs (dest ++ p) e.name with
        | ok fs1 =>
          obtain ⟨hdev, hinv1⟩ := hok fs1 hc
          simp only [hdev]
          cases hw : walkDirentTree (offsetDev (fileDev img) base) d.node.dirent.data wfuel with
          | ok ds' =>
            have hds' : ds' = ds := by
              have h1 := walkDirentTree_mono (fuel := wfuel) (by rw [hw]; nofun) (wfuel + N + 1) (by omega)
              rw [hwalk _ (by omega), hw] at h1
              cases h1; rfl
            subst hds'
            simp only
            rw [hstack]
            obtain ⟨ih1, ih2⟩ := ih _ (count + ds'.length) k fs1 _ hX' hinv1
            refine ⟨fun h => ?_, fun hg hr hN hl => ih2 hg hr hN (by simp; omega)⟩
            obtain ⟨new, hnew, hrep⟩ := ih1 h
            refine ⟨(p ++ [e.name]) :: new, by simpa using hnew, fun hcnt a => ?_⟩
            simp only [List.foldl_cons, barStep]
            rw [hrep (by simp at hcnt ⊢; omega)]
            have hRe : R (p ++ [e.name]) = true := (hR p e he).2 (.inl hisd)
            simp [hRe]; omega
          | err e' => exact ⟨fun h => by simp at h, fun _ _ hN _ => by rw [hwalk _ hN] at hw; cases hw⟩
          | panic => exact ⟨fun h => by simp at h, fun _ _ hN _ => by rw [hwalk _ hN] at hw; cases hw⟩
          | hang => exact ⟨fun h => by simp at h, fun _ _ hN _ => by rw [hwalk _ hN] at hw; cases hw⟩
        | err e' =>
          refine ⟨fun h => by simp at h, fun hg hr _ _ => ?_⟩
          exfalso
          obtain ⟨fs1, h1⟩ := webCreateDir_works (b := b) (funext fun q => (hg.1 q).2.2.1) (hr.name p e he) (hpd hr.base) (by
            rw [hun]; rcases hr.kind p e he with h | h | h
            · exact .inl h
            · exact .inr h.1
            · rw [hisd] at h; cases h.2)
          rw [hc] at h1; cases h1
        | panic =>
          refine ⟨fun h => by simp at h, fun hg hr _ _ => ?_⟩
          exfalso
          obtain ⟨fs1, h1⟩ := webCreateDir_works (b := b) (funext fun q => (hg.1 q).2.2.1) (hr.name p e he) (hpd hr.base) (by
            rw [hun]; rcases hr.kind p e he with h | h | h
            · exact .inl h
            · exact .inr h.1
            · rw [hisd] at h; cases h.2)
          rw [hc] at h1; cases h1
        | hang =>
          refine ⟨fun h => by simp at h, fun hg hr _ _ => ?_⟩
          exfalso
          obtain ⟨fs1, h1⟩ := webCreateDir_works (b := b) (funext fun q => (hg.1 q).2.2.1) (hr.name p e he) (hpd hr.base) (by
            rw [hun]; rcases hr.kind p e he with h | h | h
            · exact .inl h
            · exact .inr h.1
            · rw [hisd] at h; cases h.2)
          rw [hc] at h1; cases h1
      | none =>
        simp only
        have hfile : d.node.dirent.isDirectory = false := by
          cases hd : d.node.dirent.isDirectory with
          | false => rfl
          | true => simp [DiskData.direntTable, hd] at ht
        rw [hfile] at hisd
        have hdata := W.file hloc hfile
        rw [← hname] at hdata
        have hok : ∀ rep fs1, webUnpackFile b src img base k (dest ++ p) d fs = (.ok rep, fs1) →
            (rep = R (p ++ [e.name])) ∧
            WebInv fs0 dest rd content (done ++ [p ++ [e.name]]) (X.map (fun x => x.1 ++ [x.2.nameStr])) fs1 := by
          intro rep fs1 hu
          obtain ⟨h1, h2, h3⟩ := webUnpackFile_ok hdata hsrc1 (by rw [← hname]; exact hne) hu
          rw [← hname] at h2 h3
          refine ⟨?_, ?_⟩
          · have := hR p e he
            simp only [hisd, Bool.false_eq_true, false_or] at this
            rw [Bool.eq_iff_iff, h1, this]
          · refine hinv.step (C := []) he W.unique List.nodup_nil (by simp) ?_ ?_ h2
            · intro e' he'
              exfalso
              obtain ⟨e2, he2, hd2, hn2⟩ := entryIn_dir he'.1
              have := W.unique he2 he hn2
              subst this
              rw [hisd] at hd2; cases hd2
            · rw [h3, hun]
              simp [webNode, hisd]
        have hworks : Grants b → RoomFor fs0 src dest rd →
            ∃ rep fs1, webUnpackFile b src img base k (dest ++ p) d fs = (.ok rep, fs1) := by
          intro hg hr
          refine webUnpackFile_works hg hdata hsrc1 (by rw [← hname]; exact hne) (by rw [← hname]; exact hr.name p e he)
            (hpd hr.base) ?_
          rw [← hname, hun]
          rcases hr.kind p e he with h | h | h
          · rw [h]; nofun
          · rw [hisd] at h; cases h.2
          · obtain ⟨⟨x, hx⟩, _⟩ := h; rw [hx]; nofun
        cases hu : webUnpackFile b src img base k (dest ++ p) d fs with
        | mk r fs1 =>
        cases r with
        | ok rep =>
          obtain ⟨hrep0, hinv1⟩ := hok rep fs1 hu
          cases rep with
          | true =>
            simp only
            obtain ⟨ih1, ih2⟩ := ih _ count (k + 1) fs1 _ hXs hinv1
            refine ⟨fun h => ?_, fun hg hr hN hl => ih2 hg hr hN (by simp; omega)⟩
            obtain ⟨new, hnew, hrep⟩ := ih1 h
            refine ⟨(p ++ [e.name]) :: new, by simpa using hnew, fun hcnt a => ?_⟩
            simp only [List.foldl_cons, barStep]
            rw [hrep (by simp at hcnt ⊢; omega)]
            simp [List.countP_cons, ← hrep0]; omega
          | false =>
            simp only
            obtain ⟨ih1, ih2⟩ := ih _ count k fs1 _ hXs hinv1
            refine ⟨fun h => ?_, fun hg hr hN hl => ih2 hg hr hN (by simp; omega)⟩
            obtain ⟨new, hnew, hrep⟩ := ih1 h
            refine ⟨(p ++ [e.name]) :: new, by simpa using hnew, fun hcnt a => ?_⟩
            rw [hrep (by simp at hcnt ⊢; omega)]
            simp [List.countP_cons, ← hrep0]
        | err e' =>
          refine ⟨fun h => by simp at h, fun hg hr _ _ => ?_⟩
          obtain ⟨rep, fs2, h1⟩ := hworks hg hr
          rw [hu] at h1; cases h1
        | panic =>
          refine ⟨fun h => by simp at h, fun hg hr _ _ => ?_⟩
          obtain ⟨rep, fs2, h1⟩ := hworks hg hr
          rw [hu] at h1; cases h1
        | hang =>
          refine ⟨fun h => by simp at h, fun hg hr _ _ => ?_⟩
          obtain ⟨rep, fs2, h1⟩ := hworks hg hr
          rw [hu] at h1; cases h1

/-! ## Images that were packed -/

theorem webName_host {n : Str} (h : HostName n) : webName n = true := by
  obtain ⟨h1, h2, _, h4, h5⟩ := h
  simp only [webName, Bool.and_eq_true, bne_iff_ne, ne_eq, Bool.not_eq_true', List.contains_eq_mem, decide_eq_false_iff_not]
  exact ⟨⟨⟨h1, h4⟩, h5⟩, h2⟩

/-- The paths of all entries of a tree. -/
theorem entries_finite {rd : ReadDir} {Dp : List Path} (h : ∀ q, q ∈ Dp ↔ DirOf rd q) :
    ∃ all : List Path, (∀ p e, EntryIn rd p e → p ++ [e.name] ∈ all) ∧ ∀ p l, DirOf rd p → rd p = .ok l → l.length ≤ all.length := by
  refine ⟨Dp.flatMap (fun p => match rd p with | .ok l => l.map (fun e => p ++ [e.name]) | _ => []), ?_, ?_⟩
  · rintro p e ⟨hd, l, hl, he⟩
    refine List.mem_flatMap.2 ⟨p, (h p).2 hd, ?_⟩
    rw [hl]
    exact List.mem_map.2 ⟨e, he, rfl⟩
  · intro p l hd hl
    obtain ⟨s, t, hst⟩ := List.append_of_mem ((h p).2 hd)
    rw [hst]
    simp only [List.flatMap_append, List.flatMap_cons, List.length_append, hl, List.length_map]
    omega

theorem packed_walkable {S : SourceFs} {content : Path → Bytes} {img : Bytes} {M : PathMap TabWriter}
    {Loc : Path → Listing → Prop} {l0 : Listing} (hP : Packed S content img M Loc l0) {N : Nat}
    (hN : ∀ p l, DirOf S.readDir p → S.readDir p = .ok l → l.length ≤ N) :
    let Loc' : Path → DirEnt → Prop := fun p d => Loc (p ++ [d.nameStr]) (summary d) ∧
      ∃ e, EntryIn S.readDir p e ∧ e.name = d.nameStr ∧ e.isDir = d.node.dirent.isDirectory
    Walkable (offsetDev (fileDev img) 0) N S.readDir content Loc' ∧
      ListsDir (offsetDev (fileDev img) 0) N S.readDir Loc' [] (regionOf l0) := by
  intro Loc'
  have hag := offsetDev_zero (fileDev img)
  have huniq : ∀ {p e e'}, EntryIn S.readDir p e → EntryIn S.readDir p e' → e.name = e'.name → e = e' := by
    rintro p e e' ⟨h1, l, h2, h3⟩ ⟨_, l', h2', h3'⟩ h4
    rw [h2] at h2'; cases h2'
    exact distinct_unique (hP.distinct p l h1 h2) h3 h3' (by rw [h4]; exact rfl)
  have hlist : ∀ p l, Loc p l → l.isDir = true → ListsDir (offsetDev (fileDev img) 0) N S.readDir Loc' p (regionOf l) := by
    intro p l hl hd
    obtain ⟨lst, ds, h1, h2, h3, h4, h5, _⟩ := hP.image.list_dir hl hd
    refine ⟨ds, fun fuel hf => ?_, ?_, ?_, ?_⟩
    · rw [Props.walkDirentTree_agree hag]
      exact h3 fuel (by have := hN p lst h1 h2; omega)
    · intro d hd
      refine ⟨h4 d hd, ?_⟩
      have := h5.mem_iff.1 (List.mem_map_of_mem (f := fun d : DirEnt => (d.nameStr, d.node.dirent.isDirectory)) hd)
      obtain ⟨e, he, heq⟩ := List.mem_map.1 this
      simp only [Prod.mk.injEq] at heq
      exact ⟨e, ⟨h1, lst, h2, he⟩, heq.1, heq.2⟩
    · rintro e ⟨_, l', hl', he⟩
      rw [h2] at hl'; cases hl'
      have := h5.mem_iff.2 (List.mem_map_of_mem (f := fun e : FileEntry => (e.name, e.isDir)) he)
      obtain ⟨d, hd, heq⟩ := List.mem_map.1 this
      simp only [Prod.mk.injEq] at heq
      exact ⟨d, hd, heq.1⟩
    · have h6 := h5.map Prod.fst
      simp only [List.map_map] at h6
      refine (h6.nodup_iff).2 ?_
      have := hP.distinct p lst h1 h2
      refine List.Pairwise.imp ?_ this
      intro a b hab heq
      subst heq
      exact hab (rfl)
  refine ⟨⟨fun h => h.2, fun {p d} h hd => ?_, fun {p d} h hf => ?_, huniq⟩, hlist [] l0 hP.root hP.rootDir⟩
  · have := hlist _ _ h.1 hd
    rwa [regionOf_summary] at this
  · rw [hag.readDataAll]
    obtain ⟨g1, g2⟩ := hP.image.files _ _ h.1 hf
    obtain ⟨s1, s2⟩ := hP.image.small _ _ h.1
    exact readDataAll_holds (regionOf_summary d).symm s1 s2 g1 g2

/-- Unpacking an image that was packed. -/
theorem browserUnpack_spec {S : SourceFs} {content : Path → Bytes} (hP : PackedFrom img S content) {fs : HostFs}
    {dest : HostPath} (hsrc : fs src = some (.file img))
    (hself : ∀ p e, EntryIn S.readDir p e → src ≠ dest ++ p ++ [e.name]) (R : Path → Bool)
    (hR : ∀ p e, EntryIn S.readDir p e → (R (p ++ [e.name]) = true ↔ (e.isDir = true ∨ content (p ++ [e.name]) ≠ []))) :
    ∃ n, ∀ t : Tool,
      ((browserUnpack b t fs src dest).reply = .ok () → ∃ all,
        WebInv fs dest S.readDir content all [] (browserUnpack b t fs src dest).host ∧
        ∃ sent : List Progress, (browserUnpack b t fs src dest).sent = sent.map .progress ∧
          sent.foldl barStep (0, 0) = (all.length, all.countP R)) ∧
      (Grants b → RoomFor fs src dest S.readDir → n < t.wfuel → n ≤ t.fuel →
        (browserUnpack b t fs src dest).reply = .ok ()) := by
  obtain ⟨⟨faults, fuel, img0, s', hpack, rfl⟩, hb, hf, hnames⟩ := hP
  obtain ⟨M, Loc, l0, hP⟩ := pack_packed hb hf hpack
  obtain ⟨Dp, _, hDp⟩ := hP.finite
  obtain ⟨all, hall, hN⟩ := entries_finite hDp
  obtain ⟨W, hroot⟩ := packed_walkable hP hN
  obtain ⟨ds, hwalk, hds, hdsall, hdsn⟩ := hroot
  have hag := offsetDev_zero (fileDev s'.dev.img)
  refine ⟨all.length, fun t => ?_⟩
  by_cases hread : b.noRead src = true
  · have : browserUnpack b t fs src dest = ⟨.err .io, [], fs⟩ := by
      unfold browserUnpack getFile
      rw [if_pos hread]
    rw [this]
    refine ⟨(by intro h; cases h), fun hg => ?_⟩
    rw [(hg.1 src).2.1] at hread
    cases hread
  · have hread : b.noRead src = false := by simpa using hread
    have hget : getFile b fs src = some s'.dev.img := by
      unfold getFile
      rw [hread, hsrc]
      rfl
    have hinv : WebInv fs dest S.readDir content [] ((ds.map (fun e => (([] : Path), e))).reverse.map (fun x => x.1 ++ [x.2.nameStr])) fs := by
      have hm : (ds.map (fun e => (([] : Path), e))).reverse.map (fun x => x.1 ++ [x.2.nameStr]) =
          (ds.map (fun d => [d.nameStr])).reverse := by
        simp [List.map_reverse, Function.comp_def]
      rw [hm]
      refine ⟨?_, ?_, ?_, ?_, ?_, fun _ _ => rfl⟩
      · rw [List.nil_append, (List.reverse_perm _).nodup_iff]
        have : ds.map (fun d => [d.nameStr]) = (ds.map (·.nameStr)).map (fun n => [n]) := by simp
        rw [this]
        refine List.Pairwise.map _ ?_ hdsn
        intro a b hab heq
        exact hab (by simpa using heq)
      · intro q hq
        rw [List.nil_append, List.mem_reverse] at hq
        obtain ⟨d, hd, rfl⟩ := List.mem_map.1 hq
        obtain ⟨e, he, hn, _⟩ := W.entry (hds d hd)
        exact ⟨[], e, he, by simp [hn]⟩
      · intro p n hq
        rw [List.nil_append, List.mem_reverse] at hq
        obtain ⟨d, hd, heq⟩ := List.mem_map.1 hq
        have := congrArg List.length heq
        simp only [List.length_append, List.length_singleton] at this
        exact .inl (List.eq_nil_of_length_eq_zero (by omega))
      · intro p e he hp
        rcases hp with rfl | hp
        · obtain ⟨d, hd, hn⟩ := hdsall e he
          rw [List.nil_append, List.mem_reverse]
          exact List.mem_map.2 ⟨d, hd, by simp [hn]⟩
        · simp at hp
      · intro p e he hp; simp at hp
    have key := webUnpackLoop_spec (b := b) (wfuel := t.wfuel) W hsrc hread hself all hall R hR t.fuel
      (ds.map (fun e => (([] : Path), e))).reverse ds.length 0 fs [] (by
        intro x hx
        rw [List.mem_reverse] at hx
        obtain ⟨d, hd, rfl⟩ := List.mem_map.1 hx
        exact hds d hd) hinv
    have hst : (ds.map (fun e => (([] : Path), e))).reverse.map (fun x => (dest ++ x.1, x.2)) =
        (ds.map (fun e => (dest, e))).reverse := by
      simp [List.map_reverse, Function.comp_def]
    rw [hst] at key
    obtain ⟨key1, key2⟩ := key
    unfold browserUnpack
    rw [hget]
    simp only
    rw [webDev_file hsrc hread, offsetNew_zero hP.volume]
    simp only
    rw [hag.readVolume, hP.volume]
    simp only
    have hvr : (VolDesc.new (regionOf l0)).root = regionOf l0 := rfl
    rw [hvr]
    cases hw : walkDirentTree (offsetDev (fileDev s'.dev.img) 0) (regionOf l0) t.wfuel with
    | ok ds' =>
      have hds' : ds' = ds := by
        have h1 := walkDirentTree_mono (fuel := t.wfuel) (by rw [hw]; nofun) (t.wfuel + all.length + 1) (by omega)
        rw [hwalk _ (by omega), hw] at h1
        cases h1; rfl
      subst hds'
      simp only
      refine ⟨fun h => ?_, fun hg hr h1 h2 => key2 hg hr h1 (by simpa using h2)⟩
      obtain ⟨new, hnew, hrep⟩ := key1 h
      rw [List.nil_append] at hnew hrep
      refine ⟨new, hnew, _ :: _, rfl, ?_⟩
      simp only [List.foldl_cons, barStep]
      rw [hrep (by simp) 0, Nat.zero_add]
    | err e => exact ⟨(by intro h; cases h), fun _ _ hn _ => by rw [hwalk _ hn] at hw; cases hw⟩
    | panic => exact ⟨(by intro h; cases h), fun _ _ hn _ => by rw [hwalk _ hn] at hw; cases hw⟩
    | hang => exact ⟨(by intro h; cases h), fun _ _ hn _ => by rw [hwalk _ hn] at hw; cases hw⟩

end Xdvdfs
