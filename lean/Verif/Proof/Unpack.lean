import Verif.Model.Unpack
import Verif.Proof.Host

/-!
# Lemmas about copying files out of an image
-/

namespace Xdvdfs
open Spec

/-! ## The listing gives every directory before its contents -/

/-- Every entry is in the root, or in a directory listed earlier. -/
def ParentsFirst (l : List (Str × DirEnt)) : Prop :=
  ∀ A x B, l = A ++ x :: B → x.1 = [] ∨
    ∃ y ∈ A, y.2.node.dirent.isDirectory = true ∧ x.1 = y.1 ++ '/' :: y.2.nameStr

theorem direntTable_isDir {d : DiskData} {t : Region} (h : d.direntTable = some t) : d.isDirectory = true := by
  unfold DiskData.direntTable at h
  split at h
  · assumption
  · cases h

theorem ParentsFirst.append {l m : List (Str × DirEnt)} (hl : ParentsFirst l)
    (hm : ∀ x ∈ m, x.1 = [] ∨ ∃ y ∈ l, y.2.node.dirent.isDirectory = true ∧ x.1 = y.1 ++ '/' :: y.2.nameStr) :
    ParentsFirst (l ++ m) := by
  intro A x B h
  rcases List.append_eq_append_iff.1 h with ⟨C, h1, h2⟩ | ⟨C, h1, h2⟩
  · subst h1
    have hx : x ∈ m := by rw [h2]; simp
    rcases hm x hx with e | ⟨y, hy, e⟩
    · exact Or.inl e
    · exact Or.inr ⟨y, by simp [hy], e⟩
  · cases C with
    | nil =>
      simp only [List.nil_append] at h2
      rw [List.append_nil] at h1
      subst h1
      have hx : x ∈ m := by rw [← h2]; simp
      exact hm x hx
    | cons c C =>
      simp only [List.cons_append, List.cons.injEq] at h2
      obtain ⟨rfl, h2⟩ := h2
      exact hl A x C h1

theorem fileTreeLoop_parents {dev : Dev} {wf : Nat} : ∀ (fuel : Nat) (stack : List (Str × Region))
    (acc : List (Str × DirEnt)) {l}, fileTreeLoop dev wf fuel stack acc = .ok l → ParentsFirst acc.reverse →
    (∀ s ∈ stack, s.1 = [] ∨ ∃ y ∈ acc, y.2.node.dirent.isDirectory = true ∧ s.1 = y.1 ++ '/' :: y.2.nameStr) →
    ParentsFirst l := by
  intro fuel
  induction fuel with
  | zero =>
    intro stack acc l h hp _
    cases stack with
    | nil => simp only [fileTreeLoop, Res.ok.injEq] at h; rw [← h]; exact hp
    | cons s ss => simp [fileTreeLoop] at h
  | succ fuel ih =>
    intro stack acc l h hp hs
    cases stack with
    | nil => simp only [fileTreeLoop, Res.ok.injEq] at h; rw [← h]; exact hp
    | cons s ss =>
      obtain ⟨parent, tab⟩ := s
      simp only [fileTreeLoop] at h
      obtain ⟨ch, _, h2⟩ := Res.bind_eq_ok.1 h
      refine ih _ _ h2 ?_ ?_
      · rw [List.reverse_append, List.reverse_reverse]
        refine hp.append ?_
        intro x hx
        obtain ⟨c, _, rfl⟩ := List.mem_map.1 hx
        rcases hs _ (List.mem_cons_self ..) with e | ⟨y, hy, e⟩
        · exact Or.inl e
        · exact Or.inr ⟨y, by simpa using hy, e⟩
      · intro t ht
        rcases List.mem_append.1 ht with ht | ht
        · rw [List.mem_reverse] at ht
          unfold subdirsOf at ht
          obtain ⟨c, hc, hct⟩ := List.mem_filterMap.1 ht
          cases hd : c.node.dirent.direntTable with
          | none => rw [hd] at hct; cases hct
          | some r =>
            rw [hd] at hct
            simp only [Option.map_some, Option.some.injEq] at hct
            refine Or.inr ⟨(parent, c), ?_, direntTable_isDir hd, by rw [← hct]; simp⟩
            simp only [List.mem_append, List.mem_reverse, List.mem_map]
            exact Or.inl ⟨c, hc, rfl⟩
        · rcases hs t (List.mem_cons_of_mem _ ht) with e | ⟨y, hy, e⟩
          · exact Or.inl e
          · exact Or.inr ⟨y, by simp [hy], e⟩

theorem fileTree_parents {dev : Dev} {tab : Region} {fuel : Nat} {l} (h : fileTree dev tab fuel = .ok l) :
    ParentsFirst l := by
  refine fileTreeLoop_parents _ _ _ h ?_ ?_
  · intro A x B h; simp at h
  · intro s hs
    simp only [List.mem_singleton] at hs
    subst hs; exact Or.inl rfl

/-! ## The paths of one entry -/

/-- The directory an entry goes to. -/
abbrev entryDir (dest : Str) (x : Str × DirEnt) : Str := pathJoin dest (trimSlashes x.1)

/-- The path an entry goes to. -/
abbrev entryPath (dest : Str) (x : Str × DirEnt) : Str := pathJoin (entryDir dest x) x.2.nameStr

theorem entryDir_comps (dest : Str) (x : Str × DirEnt) :
    hostComps (entryDir dest x) = hostComps dest ++ hostComps x.1 := by
  rw [hostComps_pathJoin (trimSlashes_head _), hostComps_trim]

theorem entryDir_start (h : Host) (dest : Str) (x : Str × DirEnt) : h.start (entryDir dest x) = h.start dest :=
  start_pathJoin (trimSlashes_head _)

theorem entryPath_comps (dest : Str) {x : Str × DirEnt} (hn : '/' ∉ x.2.nameStr) :
    hostComps (entryPath dest x) = hostComps dest ++ hostComps x.1 ++ hostComps x.2.nameStr := by
  rw [hostComps_pathJoin (head_of_plain hn), entryDir_comps]

theorem entryPath_start (h : Host) (dest : Str) {x : Str × DirEnt} (hn : '/' ∉ x.2.nameStr) :
    h.start (entryPath dest x) = h.start dest := by
  rw [start_pathJoin (head_of_plain hn), entryDir_start]

theorem entryDir_place (h : Host) (dest : Str) (x : Str × DirEnt) :
    placeOf h (entryDir dest x) = stepsFrom (placeOf h dest) (hostComps x.1) := by
  unfold placeOf; rw [entryDir_comps, entryDir_start, stepsFrom_append]

theorem entryPath_place (h : Host) (dest : Str) {x : Str × DirEnt} (hn : '/' ∉ x.2.nameStr) :
    placeOf h (entryPath dest x) = stepsFrom (placeOf h (entryDir dest x)) (hostComps x.2.nameStr) := by
  unfold placeOf; rw [entryPath_comps dest hn, entryPath_start h dest hn, entryDir_comps, entryDir_start,
    stepsFrom_append]

theorem stepsFrom_prefix {cur : HostPath} {cs : List Str} (h : ['.', '.'] ∉ cs) : cur <+: stepsFrom cur cs := by
  rw [stepsFrom_below _ _ h]; exact List.prefix_append _ _

/-- Directories on the way to an entry are on the way to the destination or below it. -/
theorem entryDir_way {h : Host} {dest : Str} {x : Str × DirEnt} (hd : ['.', '.'] ∉ hostComps x.1) {q : HostPath}
    (hq : OnTheWay h (entryDir dest x) q) : OnTheWay h dest q ∨ placeOf h dest <+: q := by
  obtain ⟨k, rfl⟩ := hq
  rw [entryDir_comps, entryDir_start]
  rcases take_append_cases (hostComps dest) (hostComps x.1) k with ⟨j, e⟩ | ⟨j, e⟩
  · rw [e]; exact Or.inl ⟨j, rfl⟩
  · rw [e, stepsFrom_append]
    exact Or.inr (stepsFrom_prefix (fun hm => hd (List.mem_of_mem_take hm)))

theorem mem_comps_slash {c : Char} {s : Str} {t : Str} (ht : t ∈ hostComps s) (hc : c ∈ t) : c ∈ s := by
  unfold hostComps at ht
  replace ht := (List.mem_filter.1 ht).1
  induction s generalizing t with
  | nil => simp only [splitSlash, List.mem_singleton] at ht; subst ht; cases hc
  | cons d ds ih =>
    simp only [splitSlash] at ht
    split at ht
    · rcases List.mem_cons.1 ht with rfl | ht
      · cases hc
      · exact List.mem_cons_of_mem _ (ih hc ht)
    · split at ht
      · next seg segs hs =>
        rcases List.mem_cons.1 ht with rfl | ht
        · rcases List.mem_cons.1 hc with rfl | hc
          · simp
          · exact List.mem_cons_of_mem _ (ih hc (by rw [hs]; simp))
        · exact List.mem_cons_of_mem _ (ih hc (by rw [hs]; simp [ht]))
      · next hs => exact absurd hs (splitSlash_ne_nil ds)

/-! ## Well-formed hosts -/

theorem WellFormedHost.prefix {fs : HostFs} (hw : WellFormedHost fs) : ∀ (t q : HostPath), t ≠ [] →
    fs (q ++ t) ≠ none → fs q = some .dir := by
  intro t
  induction t with
  | nil => intro q h; exact absurd rfl h
  | cons c cs ih =>
    intro q _ h
    cases cs with
    | nil => exact hw.2 q c h
    | cons d ds =>
      have h' : fs ((q ++ [c]) ++ (d :: ds)) ≠ none := by simpa using h
      have := ih (q ++ [c]) (by simp) h'
      exact hw.2 q c (by rw [this]; simp)

theorem WellFormedHost.dropLast {fs : HostFs} (hw : WellFormedHost fs) {q : HostPath} (h : fs q = some .dir) :
    fs q.dropLast = some .dir := by
  rcases List.eq_nil_or_concat q with rfl | ⟨b, c, rfl⟩
  · exact h
  · rw [List.concat_eq_append, List.dropLast_concat]
    rw [List.concat_eq_append] at h
    exact hw.2 b c (by rw [h]; simp)

theorem WellFormedHost.set {fs : HostFs} (hw : WellFormedHost fs) {p : HostPath} {n : HostNode}
    (hp : fs p ≠ some .dir ∨ n = .dir) (hd : p = [] ∨ fs p.dropLast = some .dir) : WellFormedHost (fs.set p n) := by
  refine ⟨?_, ?_⟩
  · by_cases h : ([] : HostPath) = p
    · subst h
      rcases hp with hp | hp
      · exact absurd hw.1 hp
      · rw [set_same, hp]
    · rw [set_other h]; exact hw.1
  · intro q c h
    have key : fs q = some .dir := by
      by_cases h1 : q ++ [c] = p
      · subst h1
        rcases hd with hd | hd
        · simp at hd
        · simpa using hd
      · rw [set_other h1] at h; exact hw.2 q c h
    by_cases h2 : q = p
    · subst h2
      rcases hp with hp | hp
      · exact absurd key hp
      · rw [set_same, hp]
    · rw [set_other h2]; exact key

theorem makeDirs_wellFormed {h : Host} : ∀ (cs : List Str) (cur : HostPath) (fs : HostFs) {r fs'},
    h.makeDirs cs cur fs = (r, fs') → WellFormedHost fs → WellFormedHost fs' := by
  intro cs
  induction cs with
  | nil =>
    intro cur fs r fs' hm hw
    simp only [Host.makeDirs] at hm
    split at hm <;> (cases hm; exact hw)
  | cons c cs ih =>
    intro cur fs r fs' hm hw
    simp only [Host.makeDirs] at hm
    split at hm
    · cases hm; exact hw
    · next hd =>
      split at hm
      · exact ih _ _ hm hw
      · split at hm
        · exact ih _ _ hm hw
        · split at hm
          · exact ih _ _ hm hw
          · split at hm
            · refine ih _ _ hm (WellFormedHost.set hw (Or.inr rfl) (Or.inr ?_))
              rw [List.dropLast_concat]; simpa using hd
            · cases hm; exact hw

theorem createDirAll_wellFormed {h : Host} {path : Str} {fs fs' : HostFs} {r}
    (hc : h.createDirAll path fs = (r, fs')) (hw : WellFormedHost fs) : WellFormedHost fs' := by
  unfold Host.createDirAll at hc
  split at hc
  · cases hc; exact hw
  · split at hc
    · cases hc; exact hw
    · exact makeDirs_wellFormed _ _ _ hc hw

/-- What a walk reaches is a directory or is in one. -/
theorem hostWalk_parent {fs : HostFs} (hw : WellFormedHost fs) : ∀ (cs : List Str) (cur : HostPath) {p : HostPath},
    hostWalk fs cur cs = .ok p → fs cur = some .dir → fs p = some .dir ∨ fs p.dropLast = some .dir := by
  intro cs
  induction cs with
  | nil => intro cur p h hd; simp only [hostWalk, Res.ok.injEq] at h; subst h; exact Or.inl hd
  | cons c cs ih =>
    intro cur p h hd
    simp only [hostWalk] at h
    rw [if_neg (by simp [hd])] at h
    split at h
    · exact ih _ h hd
    · split at h
      · exact ih _ h (WellFormedHost.dropLast hw hd)
      · cases cs with
        | nil =>
          simp only [hostWalk, Res.ok.injEq] at h
          subst h; rw [List.dropLast_concat]; exact Or.inr hd
        | cons c' cs' =>
          by_cases h2 : fs (cur ++ [c]) = some .dir
          · exact ih _ h h2
          · simp only [hostWalk] at h
            rw [if_pos h2] at h; cases h

/-- The working directory of the process exists. -/
theorem start_dir {h : Host} {fs : HostFs} (hw : WellFormedHost fs) (hc : fs h.cwd = some .dir) (path : Str) :
    fs (h.start path) = some .dir := by
  unfold Host.start; split
  · exact hw.1
  · exact hc

theorem createDirAll_place {h : Host} {path : Str} {fs fs' : HostFs} (hc : h.createDirAll path fs = (.ok (), fs'))
    (hcwd : fs h.cwd = some .dir) : fs' (placeOf h path) = some .dir := by
  unfold Host.createDirAll at hc
  split at hc
  · next he =>
    cases hc; subst he
    simpa [placeOf, hostComps_nil, stepsFrom, Host.start] using hcwd
  · split at hc
    · cases hc
    · have := makeDirs_dirs _ _ _ hc (hostComps path).length
      rwa [List.take_length] at this

theorem createDirAll_keeps {h : Host} {path : Str} {fs fs' : HostFs} {r} (hc : h.createDirAll path fs = (r, fs'))
    {q : HostPath} (hq : fs q = some .dir) : fs' q = some .dir := by
  rcases createDirAll_changes hc q with e | ⟨_, e, _⟩
  · rw [e, hq]
  · rw [hq] at e; cases e

theorem ChangesOnlyInside.refl (h : Host) (dest : Str) (fs : HostFs) : ChangesOnlyInside h dest fs fs :=
  fun _ hq => absurd rfl hq

theorem ChangesOnlyInside.trans {h : Host} {dest : Str} {a b c : HostFs} (h1 : ChangesOnlyInside h dest a b)
    (h2 : ChangesOnlyInside h dest b c) : ChangesOnlyInside h dest a c := by
  intro q hq
  by_cases e1 : b q = a q
  · by_cases e2 : c q = b q
    · exact absurd (e2.trans e1) hq
    · rw [← e1]; exact h2 q e2
  · rcases h1 q e1 with g | ⟨g1, g2, g3⟩
    · exact Or.inl g
    · by_cases e2 : c q = b q
      · exact Or.inr ⟨g1, g2, by rw [e2, g3]⟩
      · rcases h2 q e2 with g | ⟨_, g4, _⟩
        · exact Or.inl g
        · rw [g3] at g4; cases g4

theorem changes_of_set {h : Host} {dest : Str} {fs : HostFs} {p : HostPath} {n : HostNode}
    (hp : placeOf h dest <+: p) : ChangesOnlyInside h dest fs (fs.set p n) := by
  intro q hq
  by_cases e : q = p
  · subst e; exact Or.inl hp
  · exact absurd (set_other e) hq

/-- The state of the host that the containment argument carries along. -/
structure Sane (h : Host) (fs : HostFs) : Prop where
  wf : WellFormedHost fs
  cwd : fs h.cwd = some .dir

theorem Sane.set {h : Host} {fs : HostFs} (hs : Sane h fs) {path : Str} {n : HostNode}
    (hwk : hostWalk fs (h.start path) (hostComps path) = .ok (placeOf h path))
    (hn : fs (placeOf h path) ≠ some .dir) : Sane h (fs.set (placeOf h path) n) := by
  refine ⟨WellFormedHost.set hs.wf (Or.inl hn) ?_, ?_⟩
  · rcases hostWalk_parent hs.wf _ _ hwk (start_dir hs.wf hs.cwd path) with e | e
    · exact absurd e hn
    · exact Or.inr e
  · rw [set_other]
    · exact hs.cwd
    · intro e; rw [← e] at hn; exact hn hs.cwd

/-- One entry: nothing outside changes, and an entry `..` that is a directory fails. -/
theorem copyoutEntry_contained {h : Host} {r : RawImage} {dest : Str} {x : Str × DirEnt} {fs fs' : HostFs} {res}
    (hrun : copyoutEntry h r dest x fs = (res, fs')) (hs : Sane h fs) (hn : '/' ∉ x.2.nameStr)
    (hd : ['.', '.'] ∉ hostComps x.1) :
    ChangesOnlyInside h dest fs fs' ∧ (res = .ok () → Sane h fs' ∧
      (x.2.node.dirent.isDirectory = true → x.2.nameStr ≠ ['.', '.'])) := by
  unfold copyoutEntry at hrun
  simp only at hrun
  cases hc : h.createDirAll (entryDir dest x) fs with
  | mk r1 fs1 =>
  have h1 : ChangesOnlyInside h dest fs fs1 := by
    intro q hq
    rcases createDirAll_changes hc q with e | ⟨e1, e2, e3⟩
    · exact absurd e hq
    · rcases entryDir_way hd e1 with g | g
      · exact Or.inr ⟨g, e2, e3⟩
      · exact Or.inl g
  rw [hc] at hrun
  cases r1 with
  | ok u =>
    simp only at hrun
    have hs1 : Sane h fs1 := ⟨createDirAll_wellFormed hc hs.wf, createDirAll_keeps hc hs.cwd⟩
    have hpl := createDirAll_place hc hs.cwd
    have hdots : x.2.nameStr = ['.', '.'] → fs1 (placeOf h (entryPath dest x)) = some .dir := by
      intro e
      rw [entryPath_place h dest hn, e]
      have : hostComps ['.', '.'] = [['.', '.']] := by decide
      rw [this]
      simp only [stepsFrom, if_true]
      rw [if_neg (by decide)]
      exact WellFormedHost.dropLast hs1.wf hpl
    have hin : x.2.nameStr ≠ ['.', '.'] → placeOf h dest <+: placeOf h (entryPath dest x) := by
      intro e
      rw [entryPath_place h dest hn, entryDir_place]
      refine (stepsFrom_prefix hd).trans (stepsFrom_prefix ?_)
      by_cases e0 : x.2.nameStr = []
      · rw [e0, hostComps_nil]; simp
      · rw [hostComps_plain hn e0]; simp only [List.mem_singleton]; exact fun e' => e e'.symm
    split at hrun
    · next hdir =>
      rcases createDir_changes hrun with ⟨e1, e2⟩ | ⟨e1, e2, e3, e4⟩
      · rw [e1]; exact ⟨h1, fun e => absurd e e2⟩
      · have hne : x.2.nameStr ≠ ['.', '.'] := by
          intro e; rw [hdots e] at e2; cases e2
        rw [e4]
        exact ⟨ChangesOnlyInside.trans h1 (changes_of_set (hin hne)), fun _ => ⟨hs1.set e3 (by rw [e2]; simp), fun _ => hne⟩⟩
    · next hdir =>
      split at hrun
      · cases hrun
        exact ⟨h1, fun _ => ⟨hs1, fun e => absurd e hdir⟩⟩
      · rcases writeFile_changes hrun with e1 | ⟨e1, e2, b, e3⟩
        · rw [e1]; exact ⟨h1, fun _ => ⟨hs1, fun e => absurd e hdir⟩⟩
        · have hne : x.2.nameStr ≠ ['.', '.'] := fun e => e1 (hdots e)
          rw [e3]
          exact ⟨ChangesOnlyInside.trans h1 (changes_of_set (hin hne)), fun _ => ⟨hs1.set e2 e1, fun e => absurd e hdir⟩⟩
  | err e => simp only at hrun; cases hrun; exact ⟨h1, fun e => by cases e⟩
  | panic => simp only at hrun; cases hrun; exact ⟨h1, fun e => by cases e⟩
  | hang => simp only at hrun; cases hrun; exact ⟨h1, fun e => by cases e⟩

theorem copyoutLoop_contained {h : Host} {r : RawImage} {dest : Str} : ∀ (B A : List (Str × DirEnt)) (fs : HostFs)
    {res fs'}, copyoutLoop h r dest B fs = (res, fs') → Sane h fs → ParentsFirst (A ++ B) →
    (∀ x ∈ B, '/' ∉ x.2.nameStr) →
    (∀ y ∈ A, ['.', '.'] ∉ hostComps y.1 ∧ '/' ∉ y.2.nameStr ∧
      (y.2.node.dirent.isDirectory = true → y.2.nameStr ≠ ['.', '.'])) →
    ChangesOnlyInside h dest fs fs' := by
  intro B
  induction B with
  | nil => intro A fs res fs' hrun _ _ _ _; cases hrun; exact ChangesOnlyInside.refl _ _ _
  | cons x xs ih =>
    intro A fs res fs' hrun hs hp hn hA
    simp only [copyoutLoop] at hrun
    have hx : ['.', '.'] ∉ hostComps x.1 := by
      rcases hp A x xs rfl with e | ⟨y, hy, hyd, e⟩
      · rw [e, hostComps_nil]; simp
      · obtain ⟨g1, g2, g3⟩ := hA y hy
        rw [e, hostComps_join]
        simp only [List.mem_append, not_or]
        refine ⟨g1, ?_⟩
        by_cases e0 : y.2.nameStr = []
        · rw [e0, hostComps_nil]; simp
        · rw [hostComps_plain g2 e0]; simp only [List.mem_singleton]; exact fun e' => g3 hyd e'.symm
    cases hc : copyoutEntry h r dest x fs with
    | mk r1 fs1 =>
    obtain ⟨h1, h2⟩ := copyoutEntry_contained hc hs (hn x (by simp)) hx
    rw [hc] at hrun
    cases r1 with
    | ok u =>
      simp only at hrun
      obtain ⟨h3, h4⟩ := h2 rfl
      refine ChangesOnlyInside.trans h1 (ih (A ++ [x]) fs1 hrun h3 (by simpa using hp) (fun y hy => hn y (by simp [hy])) ?_)
      intro y hy
      rcases List.mem_append.1 hy with hy | hy
      · exact hA y hy
      · simp only [List.mem_singleton] at hy
        subst hy
        exact ⟨hx, hn _ (by simp), h4⟩
    | err e => simp only at hrun; cases hrun; exact h1
    | panic => simp only at hrun; cases hrun; exact h1
    | hang => simp only at hrun; cases hrun; exact h1

/-! ## Restoring a tree -/

/-- The place of an entry, relative to the destination. -/
def entryRel (x : Str × DirEnt) : HostPath := hostComps x.1 ++ [x.2.nameStr]

/-- Entries with a place on the host: the parent path and the name consist of host names. -/
structure HostEntry (x : Str × DirEnt) : Prop where
  name : HostName x.2.nameStr
  dir : ∀ c ∈ hostComps x.1, c ≠ ['.'] ∧ c ≠ ['.', '.']
  nul : Char.ofNat 0 ∉ x.1

theorem steps_plain {cur : HostPath} {cs : List Str} (h : ∀ c ∈ cs, c ≠ ['.'] ∧ c ≠ ['.', '.']) :
    stepsFrom cur cs = cur ++ cs := by
  rw [stepsFrom_below _ _ (fun hm => (h _ hm).2 rfl)]
  congr 1
  apply List.filter_eq_self.2
  intro c hc
  simpa using (h c hc).1

theorem HostEntry.place {x : Str × DirEnt} (hx : HostEntry x) (h : Host) (dest : Str) :
    placeOf h (entryPath dest x) = placeOf h dest ++ entryRel x := by
  rw [entryPath_place h dest hx.name.2.1, entryDir_place, steps_plain hx.dir,
    hostComps_plain hx.name.2.1 hx.name.1, steps_plain]
  · simp [entryRel]
  · intro c hc
    simp only [List.mem_singleton] at hc
    subst hc
    exact hx.name.2.2.2

theorem trimSlashes_mem {c : Char} : ∀ {s : Str}, c ∈ trimSlashes s → c ∈ s := by
  intro s
  induction s with
  | nil => exact id
  | cons d ds ih =>
    intro h
    unfold trimSlashes at h
    split at h
    · next h' =>
      injection h' with h1 h2
      subst h2
      exact List.mem_cons_of_mem _ (ih h)
    · exact h

theorem splitSlash_last {a b : Str} (hb : '/' ∉ b) : (splitSlash (pathJoin a b)).getLast? = some b := by
  unfold pathJoin
  rw [if_neg (head_of_plain hb)]
  split
  · next h' =>
    rcases h' with rfl | h'
    · rw [List.nil_append, splitSlash_plain hb]; rfl
    · obtain ⟨d, rfl⟩ := getLast_split h'
      have h1 : d ++ ['/'] ++ b = d ++ '/' :: b := by simp
      rw [h1, splitSlash_join, splitSlash_plain hb, List.getLast?_append]; rfl
  · rw [splitSlash_join, splitSlash_plain hb, List.getLast?_append]; rfl

theorem pathJoin_ne_nil {a b : Str} (hb : b ≠ []) : pathJoin a b ≠ [] := by
  unfold pathJoin
  split
  · exact hb
  · split
    · simp [hb]
    · simp

theorem way_prefix {h : Host} {dest : Str} (hd : ['.', '.'] ∉ hostComps dest) {q : HostPath}
    (hq : OnTheWay h dest q) : q <+: placeOf h dest := by
  obtain ⟨k, rfl⟩ := hq
  unfold placeOf
  have : stepsFrom (h.start dest) (hostComps dest) =
      stepsFrom (stepsFrom (h.start dest) ((hostComps dest).take k)) ((hostComps dest).drop k) := by
    rw [← stepsFrom_append, List.take_append_drop]
  rw [this]
  exact stepsFrom_prefix (fun hm => hd (List.mem_of_mem_drop hm))

theorem way_place (h : Host) (dest : Str) : OnTheWay h dest (placeOf h dest) :=
  ⟨(hostComps dest).length, by rw [List.take_length]; rfl⟩

theorem way_start (h : Host) (dest : Str) : OnTheWay h dest (h.start dest) := ⟨0, rfl⟩

/-- What the host looks like after the entries `A` have been copied out. -/
structure Restored (h : Host) (dest : Str) (nodeOf : Str × DirEnt → HostNode) (fs0 : HostFs)
    (A : List (Str × DirEnt)) (fs : HostFs) : Prop where
  placed : ∀ y ∈ A, fs (placeOf h dest ++ entryRel y) = some (nodeOf y)
  dirs : ∀ y ∈ A, ∀ pre, pre <+: hostComps y.1 → fs (placeOf h dest ++ pre) = some .dir
  way : A ≠ [] → ∀ q, OnTheWay h dest q → fs q = some .dir
  other : ∀ q, (∀ y ∈ A, q ≠ placeOf h dest ++ entryRel y) → (OnTheWay h dest q → A = []) → fs q = fs0 q

/-- Creating the directory of an entry whose parents have been placed creates at most what is missing
on the way to the destination. -/
theorem entryDir_created {h : Host} (hf : ∀ p, h.faults p = .none) {dest : Str} {fs0 fs : HostFs}
    {nodeOf : Str × DirEnt → HostNode} {A : List (Str × DirEnt)} (hfresh : ClearWay h dest fs0)
    (hI : Restored h dest nodeOf fs0 A fs) {x : Str × DirEnt} (hx : HostEntry x)
    (hpar : ∀ pre, pre <+: hostComps x.1 → pre ≠ [] → fs (placeOf h dest ++ pre) = some .dir) :
    ∃ fs1, h.createDirAll (entryDir dest x) fs = (.ok (), fs1) ∧
      (∀ q, OnTheWay h dest q → fs1 q = some .dir) ∧ (∀ q, ¬ OnTheWay h dest q → fs1 q = fs q) ∧
      ∀ q, OnTheWay h (entryDir dest x) q → fs1 q = some .dir := by
  obtain ⟨f1, f2, f3, f4⟩ := hfresh
  have hway : ∀ q, OnTheWay h dest q → fs q = none ∨ fs q = some .dir := by
    intro q hq
    by_cases hA : A = []
    · rw [hI.other q (by rw [hA]; simp) (fun _ => hA)]; exact f4 q hq
    · exact Or.inr (hI.way hA q hq)
  have hstart : fs (h.start dest) = some .dir := by
    by_cases hA : A = []
    · rw [hI.other _ (by rw [hA]; simp) (fun _ => hA)]; exact f3
    · exact hI.way hA _ (way_start h dest)
  have hcases : ∀ q, OnTheWay h (entryDir dest x) q → OnTheWay h dest q ∨
      ∃ pre, pre <+: hostComps x.1 ∧ pre ≠ [] ∧ q = placeOf h dest ++ pre := by
    rintro q ⟨k, rfl⟩
    rw [entryDir_comps, entryDir_start]
    rcases take_append_cases (hostComps dest) (hostComps x.1) k with ⟨j, e⟩ | ⟨j, e⟩
    · rw [e]; exact Or.inl ⟨j, rfl⟩
    · rw [e, stepsFrom_append, steps_plain (fun c hc => hx.dir c (List.mem_of_mem_take hc))]
      by_cases hp : (hostComps x.1).take j = []
      · rw [hp, List.append_nil]; exact Or.inl (way_place h dest)
      · exact Or.inr ⟨_, List.take_prefix _ _, hp, rfl⟩
  have hsub : ∀ q, OnTheWay h dest q → OnTheWay h (entryDir dest x) q := by
    rintro q ⟨k, rfl⟩
    refine ⟨min k (hostComps dest).length, ?_⟩
    rw [entryDir_comps, entryDir_start, List.take_append_of_le_length (by omega), ← List.take_eq_take_min]
  have hok : ∃ fs1, h.createDirAll (entryDir dest x) fs = (.ok (), fs1) ∧
      ∀ q, OnTheWay h (entryDir dest x) q → fs1 q = some .dir := by
    unfold Host.createDirAll
    by_cases hnil : entryDir dest x = []
    · rw [if_pos hnil]
      refine ⟨fs, rfl, ?_⟩
      rintro q ⟨k, rfl⟩
      rw [hnil, hostComps_nil, List.take_nil]
      have := entryDir_start h dest x
      rw [hnil] at this
      rw [this]; exact hstart
    · rw [if_neg hnil]
      have hnul : Char.ofNat 0 ∉ entryDir dest x := by
        intro hm
        rcases mem_pathJoin hm (by decide) with hm | hm
        · exact f1 hm
        · exact hx.nul (trimSlashes_mem hm)
      rw [if_neg hnul]
      obtain ⟨fs1, h1⟩ := makeDirs_ok hf (hostComps (entryDir dest x)) (h.start (entryDir dest x)) fs (by
        rw [entryDir_comps]
        simp only [List.mem_append, not_or]
        exact ⟨f2, fun hm => (hx.dir _ hm).2 rfl⟩) (by rw [entryDir_start]; exact hstart) (by
        intro k
        rcases hcases _ ⟨k, rfl⟩ with g | ⟨pre, g1, g2, g3⟩
        · exact hway _ g
        · rw [g3]; exact Or.inr (hpar pre g1 g2))
      refine ⟨fs1, h1, ?_⟩
      rintro q ⟨k, rfl⟩
      exact makeDirs_dirs _ _ _ h1 k
  obtain ⟨fs1, h1, h2⟩ := hok
  refine ⟨fs1, h1, fun q hq => h2 q (hsub q hq), ?_, h2⟩
  intro q hq
  rcases createDirAll_changes h1 q with e | ⟨e1, e2, e3⟩
  · exact e
  · rcases hcases q e1 with g | ⟨pre, g1, g2, g3⟩
    · exact absurd g hq
    · rw [g3, hpar pre g1 g2] at e2; cases e2

theorem entryPath_resolves {h : Host} {dest : Str} {fs : HostFs} {x : Str × DirEnt} (hx : HostEntry x)
    (hd : Char.ofNat 0 ∉ dest) (hw : ∀ q, OnTheWay h (entryDir dest x) q → fs q = some .dir) :
    h.resolve fs (entryPath dest x) = .ok (placeOf h dest ++ entryRel x) := by
  unfold Host.resolve
  rw [if_neg]
  · rw [hostWalk_ok]
    · rw [← hx.place h dest]; rfl
    · intro k hk
      refine hw _ ⟨k, ?_⟩
      rw [entryPath_start h dest hx.name.2.1, ← entryDir_start h dest x]
      congr 1
      rw [hostComps_pathJoin (head_of_plain hx.name.2.1), hostComps_plain hx.name.2.1 hx.name.1] at hk ⊢
      rw [List.length_append, List.length_singleton] at hk
      exact List.take_append_of_le_length (by omega)
  · simp only [not_or]
    refine ⟨pathJoin_ne_nil hx.name.1, fun hm => ?_⟩
    rcases mem_pathJoin hm (by decide) with hm | hm
    · rcases mem_pathJoin hm (by decide) with hm | hm
      · exact hd hm
      · exact hx.nul (trimSlashes_mem hm)
    · exact hx.name.2.2.1 hm

/-- The place of an entry does not stand in the way of the entry: nothing is at the place of a directory, and no
directory at the place of a file. -/
def FreeFor (h : Host) (dest : Str) (fs : HostFs) (x : Str × DirEnt) : Prop :=
  if x.2.node.dirent.isDirectory then fs (placeOf h dest ++ entryRel x) = none
  else fs (placeOf h dest ++ entryRel x) ≠ some .dir

theorem _root_.Xdvdfs.Spec.FreshDest.clear {h : Host} {dest : Str} {fs : HostFs} (hf : FreshDest h dest fs) : ClearWay h dest fs :=
  ⟨hf.1, hf.2.1, hf.2.2.1, hf.2.2.2.1⟩

theorem _root_.Xdvdfs.Spec.FreshDest.free {h : Host} {dest : Str} {fs : HostFs} (hf : FreshDest h dest fs) (x : Str × DirEnt) :
    FreeFor h dest fs x := by
  have : fs (placeOf h dest ++ entryRel x) = none := by
    refine hf.2.2.2.2 _ (List.prefix_append _ _) (fun e => ?_)
    have := congrArg List.length e
    simp only [List.length_append, entryRel, List.length_singleton] at this
    omega
  unfold FreeFor
  split
  · exact this
  · rw [this]; simp

/-- One entry is placed. -/
theorem copyoutEntry_restores {h : Host} (hf : ∀ p, h.faults p = .none) {r : RawImage} {dest : Str}
    {fs0 fs : HostFs} {nodeOf : Str × DirEnt → HostNode} {A : List (Str × DirEnt)}
    (hfresh : ClearWay h dest fs0) (hI : Restored h dest nodeOf fs0 A fs) {x : Str × DirEnt} (hx : HostEntry x)
    (hpar : ∀ pre, pre <+: hostComps x.1 → pre ≠ [] → fs (placeOf h dest ++ pre) = some .dir)
    (hnew : ∀ y ∈ A, entryRel y ≠ entryRel x) (hfree : FreeFor h dest fs0 x)
    (hnode : if x.2.node.dirent.isDirectory then nodeOf x = .dir
      else x.2.node.dirent.nameLen ≠ 0 ∧ ∃ b, r.extract x.2.node.dirent = .ok b ∧ nodeOf x = .file b) :
    ∃ fs', copyoutEntry h r dest x fs = (.ok (), fs') ∧ Restored h dest nodeOf fs0 (A ++ [x]) fs' := by
  obtain ⟨fs1, c1, c2, c3, c4⟩ := entryDir_created hf hfresh hI hx hpar
  obtain ⟨f1, f2, f3, f4⟩ := hfresh
  have hnw : ¬ OnTheWay h dest (placeOf h dest ++ entryRel x) := by
    intro hq
    have := (way_prefix f2 hq).length_le
    simp only [List.length_append, entryRel, List.length_singleton] at this
    omega
  have hres := entryPath_resolves hx f1 c4
  have hsame : fs1 (placeOf h dest ++ entryRel x) = fs0 (placeOf h dest ++ entryRel x) := by
    rw [c3 _ hnw, hI.other _ (fun y hy e => hnew y hy (List.append_cancel_left e).symm) (fun hq => absurd hq hnw)]
  have hnd : fs1 (placeOf h dest ++ entryRel x) ≠ some .dir := by
    rw [hsame]
    unfold FreeFor at hfree
    split at hfree
    · rw [hfree]; simp
    · exact hfree
  refine ⟨fs1.set (placeOf h dest ++ entryRel x) (nodeOf x), ?_, ?_⟩
  · unfold copyoutEntry
    simp only
    rw [c1]
    simp only
    split at hnode
    · next hdir =>
      rw [if_pos hdir]
      unfold Host.createDir
      rw [hres]
      simp only
      unfold FreeFor at hfree
      rw [if_pos hdir] at hfree
      rw [hsame, hfree]
      simp only
      rw [if_pos (hf _), hnode]
    · next hdir =>
      rw [if_neg hdir]
      obtain ⟨n1, b, n2, n3⟩ := hnode
      rw [if_neg n1]
      unfold Host.writeFile
      rw [hres]
      simp only
      rw [splitSlash_last hx.name.2.1, hf, if_neg, n2]
      · simp only; rw [n3]
      · simp only [Option.some.injEq, not_or]
        exact ⟨hnd, hx.name.1, hx.name.2.2.2.1, hx.name.2.2.2.2⟩
  · have hset : ∀ {q}, q ≠ placeOf h dest ++ entryRel x →
        fs1.set (placeOf h dest ++ entryRel x) (nodeOf x) q = fs1 q := fun hq => set_other hq
    refine ⟨?_, ?_, ?_, ?_⟩
    · intro y hy
      by_cases e : entryRel y = entryRel x
      · rcases List.mem_append.1 hy with hy | hy
        · exact absurd e (hnew y hy)
        · simp only [List.mem_singleton] at hy; subst hy; exact set_same _ _ _
      · rcases List.mem_append.1 hy with hy | hy
        · rw [hset (fun e' => e (List.append_cancel_left e')), c3, hI.placed y hy]
          intro hq
          have := (way_prefix f2 hq).length_le
          simp only [List.length_append, entryRel, List.length_singleton] at this
          omega
        · simp only [List.mem_singleton] at hy; subst hy; exact absurd rfl e
    · intro y hy pre hpre
      have key : fs1 (placeOf h dest ++ pre) = some .dir := by
        by_cases hw : OnTheWay h dest (placeOf h dest ++ pre)
        · exact c2 _ hw
        · rw [c3 _ hw]
          rcases List.mem_append.1 hy with hy | hy
          · exact hI.dirs y hy pre hpre
          · simp only [List.mem_singleton] at hy
            subst hy
            by_cases hp : pre = []
            · subst hp; rw [List.append_nil] at hw; exact absurd (way_place h dest) hw
            · exact hpar pre hpre hp
      rw [hset, key]
      intro e; rw [e] at key; exact hnd key
    · intro _ q hq
      rw [hset, c2 q hq]
      intro e; rw [e] at hq; exact hnw hq
    · intro q hq hwq
      rw [hset (hq x (by simp)), c3, hI.other q (fun y hy => hq y (by simp [hy])) (fun hw => by simpa using hwq hw)]
      intro hw; have := hwq hw; simp at this

theorem copyoutLoop_restores {h : Host} (hf : ∀ p, h.faults p = .none) {r : RawImage} {dest : Str}
    {fs0 : HostFs} {nodeOf : Str × DirEnt → HostNode} (hfresh : ClearWay h dest fs0) :
    ∀ (B A : List (Str × DirEnt)) (fs : HostFs), Restored h dest nodeOf fs0 A fs → ParentsFirst (A ++ B) →
    (∀ x ∈ A ++ B, HostEntry x) → ((A ++ B).map entryRel).Nodup → (∀ x ∈ A ++ B, FreeFor h dest fs0 x) →
    (∀ x ∈ A ++ B, if x.2.node.dirent.isDirectory then nodeOf x = .dir
      else x.2.node.dirent.nameLen ≠ 0 ∧ ∃ b, r.extract x.2.node.dirent = .ok b ∧ nodeOf x = .file b) →
    ∃ fs', copyoutLoop h r dest B fs = (.ok (), fs') ∧ Restored h dest nodeOf fs0 (A ++ B) fs' := by
  intro B
  induction B with
  | nil => intro A fs hI _ _ _ _ _; rw [List.append_nil]; exact ⟨fs, rfl, hI⟩
  | cons x xs ih =>
    intro A fs hI hp hx hnd hfree hnode
    have hpar : ∀ pre, pre <+: hostComps x.1 → pre ≠ [] → fs (placeOf h dest ++ pre) = some .dir := by
      intro pre hpre hne
      rcases hp A x xs rfl with e | ⟨y, hy, hyd, e⟩
      · rw [e, hostComps_nil] at hpre
        exact absurd (List.prefix_nil.1 hpre) hne
      · have hye := hx y (by simp [hy])
        rw [e, hostComps_join, hostComps_plain hye.name.2.1 hye.name.1] at hpre
        rcases List.prefix_concat_iff.1 hpre with g | g
        · rw [g]
          have := hI.placed y hy
          have hn := hnode y (by simp [hy])
          rw [if_pos hyd] at hn
          rw [hn] at this
          exact this
        · exact hI.dirs y hy pre g
    obtain ⟨fs1, h1, h2⟩ := copyoutEntry_restores hf hfresh hI (hx x (by simp)) hpar (by
      intro y hy e
      rw [List.map_append, List.map_cons] at hnd
      have := (List.nodup_append.1 hnd).2.2 (entryRel y) (List.mem_map.2 ⟨y, hy, rfl⟩) (entryRel x) (by simp)
      exact this e) (hfree x (by simp)) (hnode x (by simp)) (r := r)
    obtain ⟨fs', h3, h4⟩ := ih (A ++ [x]) fs1 h2 (by simpa using hp) (by simpa using hx) (by simpa using hnd)
      (by simpa using hfree) (by simpa using hnode)
    refine ⟨fs', ?_, by simpa using h4⟩
    simp only [copyoutLoop]
    rw [h1]; exact h3

/-! ## Devices that agree where the reader looks -/

/-- Two devices agree on every read that starts below `2^44`. -/
def AgreeLow (a b : Dev) : Prop := ∀ off n, off < 2 ^ 44 → a.read off n = b.read off n

theorem offset_low {r : Region} {o off : Nat} (h : r.offset o = .ok off) : off + 2 ^ 16 < 2 ^ 44 := by
  unfold Region.offset at h
  split at h
  · cases h
  · cases h
    have h1 := r.sector.toNat_lt
    have h2 := r.size.toNat_lt
    simp only [sectorSize] at *
    omega

theorem AgreeLow.readVolume {a b : Dev} (h : AgreeLow a b) : Xdvdfs.readVolume a = Xdvdfs.readVolume b := by
  unfold Xdvdfs.readVolume
  rw [h _ _ (by decide)]

theorem AgreeLow.readDirent {a b : Dev} (h : AgreeLow a b) {off : Nat} (ho : off + 2 ^ 16 < 2 ^ 44) :
    Xdvdfs.readDirent a off = Xdvdfs.readDirent b off := by
  unfold Xdvdfs.readDirent
  rw [h off _ (by omega)]
  congr 1
  funext buf
  split
  · rfl
  · rw [h (off + 0xe) _ (by omega)]

theorem AgreeLow.walkLoop {a b : Dev} (h : AgreeLow a b) (tab : Region) : ∀ (fuel : Nat) (stack : List Nat)
    (acc : List DirEnt), Xdvdfs.walkLoop a tab fuel stack acc = Xdvdfs.walkLoop b tab fuel stack acc := by
  intro fuel
  induction fuel with
  | zero => intro stack acc; cases stack <;> rfl
  | succ fuel ih =>
    intro stack acc
    cases stack with
    | nil => rfl
    | cons top stack =>
      simp only [Xdvdfs.walkLoop]
      cases ho : tab.offset top with
      | ok off =>
        simp only [Res.ok_bind]
        rw [h.readDirent (offset_low ho)]
        congr 1
        funext d
        cases d with
        | none => exact ih _ _
        | some d => exact ih _ _
      | err e => rfl
      | panic => rfl
      | hang => rfl

theorem AgreeLow.fileTreeLoop {a b : Dev} (h : AgreeLow a b) (wf : Nat) : ∀ (fuel : Nat) (stack : List (Str × Region))
    (acc : List (Str × DirEnt)),
    Xdvdfs.fileTreeLoop a wf fuel stack acc = Xdvdfs.fileTreeLoop b wf fuel stack acc := by
  intro fuel
  induction fuel with
  | zero => intro stack acc; cases stack <;> rfl
  | succ fuel ih =>
    intro stack acc
    cases stack with
    | nil => rfl
    | cons s stack =>
      obtain ⟨parent, tab⟩ := s
      simp only [Xdvdfs.fileTreeLoop]
      have : walkDirentTree a tab wf = walkDirentTree b tab wf := by
        unfold walkDirentTree; rw [h.walkLoop]
      rw [this]
      congr 1
      funext ch
      exact ih _ _

theorem AgreeLow.fileTree {a b : Dev} (h : AgreeLow a b) (tab : Region) (fuel : Nat) :
    Xdvdfs.fileTree a tab fuel = Xdvdfs.fileTree b tab fuel := h.fileTreeLoop _ _ _ _

theorem AgreeLow.readDataAll {a b : Dev} (h : AgreeLow a b) (d : DiskData) :
    Xdvdfs.readDataAll a d = Xdvdfs.readDataAll b d := by
  unfold Xdvdfs.readDataAll
  split
  · rfl
  · cases ho : d.data.offset 0 with
    | ok off =>
      have := offset_low ho
      simp only [Res.ok_bind]
      exact h _ _ (by omega)
    | err e => rfl
    | panic => rfl
    | hang => rfl

theorem offsetDev_zero (dev : Dev) : AgreeLow (offsetDev dev 0) dev := by
  intro off n ho
  simp only [offsetDev, offsetRead]
  rw [if_pos (by omega), Nat.add_zero]

theorem offsetNew_zero {dev : Dev} {vol : VolDesc} (h : readVolume dev = .ok vol) : offsetNew dev = .ok 0 := by
  unfold offsetNew xdvdOffsets offsetNewLoop
  rw [(offsetDev_zero dev).readVolume, h]

/-! ## Names of listed entries -/

theorem walkLoop_named {dev : Dev} {tab : Region} : ∀ (fuel : Nat) (stack : List Nat) (acc : List DirEnt) {l},
    walkLoop dev tab fuel stack acc = .ok l → (∀ d ∈ acc, d.name.length = d.node.dirent.nameLen.toNat) →
    ∀ d ∈ l, d.name.length = d.node.dirent.nameLen.toNat := by
  intro fuel
  induction fuel with
  | zero =>
    intro stack acc l h ha
    cases stack with
    | nil => simp only [walkLoop, Res.ok.injEq] at h; subst h; simpa using ha
    | cons s ss => simp [walkLoop] at h
  | succ fuel ih =>
    intro stack acc l h ha
    cases stack with
    | nil => simp only [walkLoop, Res.ok.injEq] at h; subst h; simpa using ha
    | cons s ss =>
      simp only [walkLoop] at h
      obtain ⟨off, _, h⟩ := Res.bind_eq_ok.1 h
      obtain ⟨d, hd, h⟩ := Res.bind_eq_ok.1 h
      cases d with
      | none => exact ih _ _ h ha
      | some d =>
        refine ih _ _ h ?_
        intro e he
        rcases List.mem_cons.1 he with rfl | he
        · unfold readDirent at hd
          obtain ⟨buf, _, hd⟩ := Res.bind_eq_ok.1 hd
          split at hd
          · cases hd
          · obtain ⟨nm, hn, hd⟩ := Res.bind_eq_ok.1 hd
            cases hd
            exact dev.read_len _ _ _ hn
        · exact ha e he

theorem fileTreeLoop_named {dev : Dev} {wf : Nat} : ∀ (fuel : Nat) (stack : List (Str × Region))
    (acc : List (Str × DirEnt)) {l}, fileTreeLoop dev wf fuel stack acc = .ok l →
    (∀ x ∈ acc, x.2.name.length = x.2.node.dirent.nameLen.toNat) →
    ∀ x ∈ l, x.2.name.length = x.2.node.dirent.nameLen.toNat := by
  intro fuel
  induction fuel with
  | zero =>
    intro stack acc l h ha
    cases stack with
    | nil => simp only [fileTreeLoop, Res.ok.injEq] at h; subst h; simpa using ha
    | cons s ss => simp [fileTreeLoop] at h
  | succ fuel ih =>
    intro stack acc l h ha
    cases stack with
    | nil => simp only [fileTreeLoop, Res.ok.injEq] at h; subst h; simpa using ha
    | cons s ss =>
      obtain ⟨parent, tab⟩ := s
      simp only [fileTreeLoop] at h
      obtain ⟨ch, hc, h2⟩ := Res.bind_eq_ok.1 h
      refine ih _ _ h2 ?_
      intro x hx
      rcases List.mem_append.1 hx with hx | hx
      · rw [List.mem_reverse] at hx
        obtain ⟨c, hcm, rfl⟩ := List.mem_map.1 hx
        unfold walkDirentTree at hc
        split at hc
        · cases hc; cases hcm
        · exact walkLoop_named _ _ _ hc (by simp) c hcm
      · exact ha x hx

theorem fileTree_named {dev : Dev} {tab : Region} {fuel : Nat} {l} (h : fileTree dev tab fuel = .ok l) :
    ∀ x ∈ l, x.2.name.length = x.2.node.dirent.nameLen.toNat :=
  fileTreeLoop_named _ _ _ h (by simp)

/-- Copying out delivers what reading the file gives. -/
theorem extract_ok {r : RawImage} {d : DiskData} {b : Bytes} (h : readDataAll r.dev d = .ok b) :
    r.extract d = .ok b := by
  unfold RawImage.extract
  by_cases h0 : d.data.isEmpty = true
  · rw [if_pos h0]
    unfold readDataAll at h
    have : d.data.size = 0 := by simpa [Region.isEmpty] using h0
    rw [if_pos this] at h
    exact h
  · rw [if_neg h0]
    have h1 : d.data.size ≠ 0 := by simpa [Region.isEmpty] using h0
    have h' := h
    unfold readDataAll at h
    rw [if_neg h1] at h
    obtain ⟨off, ho, h⟩ := Res.bind_eq_ok.1 h
    rw [ho]
    simp only [Res.ok_bind]
    split
    · simp only [RawImage.dev, offsetDev, offsetRead] at h
      split at h
      · simp only [fileDev, fileRead] at h
        have hs : d.data.size.toNat ≠ 0 := fun e => h1 (UInt32.toNat_inj.1 e)
        rw [if_neg hs] at h
        split at h
        · exact h
        · cases h
      · cases h
    · exact h'

/-! ## Unpacking an image that holds a tree -/

theorem dir_hostNames {rd : Path → Res (List FileEntry)} (hn : ∀ p e, EntryIn rd p e → HostName e.name) {p : Path}
    (hp : DirOf rd p) : ∀ c ∈ p, HostName c := by
  induction hp with
  | root => simp
  | @sub p l e h1 h2 h3 h4 ih =>
    intro c hc
    rcases List.mem_append.1 hc with hc | hc
    · exact ih c hc
    · simp only [List.mem_singleton] at hc
      subst hc
      exact hn p e ⟨h1, l, h2, h3⟩

theorem hostComps_slashPath : ∀ {p : Path}, (∀ c ∈ p, HostName c) → hostComps (slashPath p) = p := by
  intro p
  induction p with
  | nil => intro _; exact hostComps_nil
  | cons c cs ih =>
    intro h
    have h1 : slashPath (c :: cs) = '/' :: (c ++ slashPath cs) := rfl
    have hc := h c (by simp)
    have hcs := ih (fun d hd => h d (by simp [hd]))
    have h2 : hostComps ('/' :: (c ++ slashPath cs)) = hostComps (c ++ slashPath cs) := by
      have := hostComps_join [] (c ++ slashPath cs)
      rwa [hostComps_nil] at this
    rw [h1, h2]
    cases cs with
    | nil => simpa [slashPath] using hostComps_plain hc.2.1 hc.1
    | cons d ds =>
      have h3 : slashPath (d :: ds) = '/' :: (d ++ slashPath ds) := rfl
      have h4 : hostComps ('/' :: (d ++ slashPath ds)) = hostComps (d ++ slashPath ds) := by
        have := hostComps_join [] (d ++ slashPath ds)
        rwa [hostComps_nil] at this
      rw [h3, h4] at hcs
      rw [h3, hostComps_join, hostComps_plain hc.2.1 hc.1, hcs]; rfl

theorem slashPath_mem {c : Char} (hc : c ≠ '/') {p : Path} (h : c ∈ slashPath p) : ∃ s ∈ p, c ∈ s := by
  unfold slashPath at h
  obtain ⟨s, hs, hm⟩ := List.mem_flatMap.1 h
  rcases List.mem_cons.1 hm with e | hm
  · exact absurd e hc
  · exact ⟨s, hs, hm⟩

/-- The recursive listing of a table is, given enough fuel, up to order the list of all entries of a
tree. -/
def ListsFrom (dev : Dev) (tab : Region) (rd : Path → Res (List FileEntry)) (content : Path → Bytes) : Prop :=
  ∃ all : List (Path × FileEntry), all.Nodup ∧ (∀ p e, (p, e) ∈ all ↔ EntryIn rd p e) ∧
    ∃ n listed, (∀ fuel, n < fuel → fileTree dev tab fuel = .ok listed) ∧
      (listed.map (direntKey dev)).Perm (all.map (entryKey content))

/-- Copying out the whole tree below a table of an image. -/
theorem copyout_restores {h : Host} (hf : ∀ p, h.faults p = .none) {r : RawImage} {dest : Str} {fs : HostFs}
    (hfresh : FreshDest h dest fs) {rd : Path → Res (List FileEntry)} {content : Path → Bytes} {tab : Region}
    (hl : ListsFrom r.dev tab rd content) (hd : AllDistinct rd) (hn : ∀ p e, EntryIn rd p e → HostName e.name) :
    ∃ n fs', (∀ fuel, n < fuel → copyoutDirectory h r dest tab fuel fs = (.ok (), fs')) ∧
      TreeAt fs' (placeOf h dest) rd content ∧ ChangesOnlyInside h dest fs fs' := by
  obtain ⟨all, a1, a2, n, listed, a3, a4⟩ := hl
  have hfuel := a3 (n + 1) (by omega)
  -- every listed entry is an entry of the source
  have hent : ∀ x ∈ listed, ∃ p e, EntryIn rd p e ∧ x.1 = slashPath p ∧ x.2.nameStr = e.name ∧
      x.2.node.dirent.isDirectory = e.isDir ∧
      (e.isDir = false → readDataAll r.dev x.2.node.dirent = .ok (content (p ++ [e.name]))) := by
    intro x hx
    have : direntKey r.dev x ∈ all.map (entryKey content) := a4.mem_iff.1 (List.mem_map.2 ⟨x, hx, rfl⟩)
    obtain ⟨⟨p, e⟩, hm, hk⟩ := List.mem_map.1 this
    simp only [entryKey, direntKey, Prod.mk.injEq] at hk
    obtain ⟨k1, k2, k3, k4⟩ := hk
    refine ⟨p, e, (a2 p e).1 hm, k1.symm, k2.symm, k3.symm, fun hfile => ?_⟩
    rw [← k3, hfile] at k4
    simp only [Bool.false_eq_true, if_false, Option.some.injEq, Prod.mk.injEq] at k4
    exact k4.2.symm
  have hsrc : ∀ p e, EntryIn rd p e → ∃ x ∈ listed, x.1 = slashPath p ∧ x.2.nameStr = e.name ∧
      x.2.node.dirent.isDirectory = e.isDir ∧
      (e.isDir = false → readDataAll r.dev x.2.node.dirent = .ok (content (p ++ [e.name]))) := by
    intro p e he
    have : entryKey content (p, e) ∈ listed.map (direntKey r.dev) :=
      a4.mem_iff.2 (List.mem_map.2 ⟨(p, e), (a2 p e).2 he, rfl⟩)
    obtain ⟨x, hm, hk⟩ := List.mem_map.1 this
    simp only [entryKey, direntKey, Prod.mk.injEq] at hk
    obtain ⟨k1, k2, k3, k4⟩ := hk
    refine ⟨x, hm, k1, k2, k3, fun hfile => ?_⟩
    rw [k3, hfile] at k4
    simp only [Bool.false_eq_true, if_false, Option.some.injEq, Prod.mk.injEq] at k4
    exact k4.2
  have hrel : ∀ {x : Str × DirEnt} {p : Path} {e : FileEntry}, EntryIn rd p e → x.1 = slashPath p →
      x.2.nameStr = e.name → entryRel x = p ++ [e.name] := by
    intro x p e he h1 h2
    unfold entryRel
    rw [h1, h2, hostComps_slashPath (dir_hostNames hn he.1)]
  have hHE : ∀ x ∈ listed, HostEntry x := by
    intro x hx
    obtain ⟨p, e, he, h1, h2, _⟩ := hent x hx
    have hpn := dir_hostNames hn he.1
    refine ⟨by rw [h2]; exact hn p e he, ?_, ?_⟩
    · rw [h1, hostComps_slashPath hpn]
      exact fun c hc => ⟨(hpn c hc).2.2.2.1, (hpn c hc).2.2.2.2⟩
    · rw [h1]
      intro hm
      obtain ⟨s, hs, hm⟩ := slashPath_mem (by decide) hm
      exact (hpn s hs).2.2.1 hm
  let nodeOf : Str × DirEnt → HostNode := fun x =>
    if x.2.node.dirent.isDirectory then .dir else .file (content (entryRel x))
  have hnode : ∀ x ∈ listed, if x.2.node.dirent.isDirectory then nodeOf x = .dir
      else x.2.node.dirent.nameLen ≠ 0 ∧ ∃ b, r.extract x.2.node.dirent = .ok b ∧ nodeOf x = .file b := by
    intro x hx
    obtain ⟨p, e, he, h1, h2, h3, h4⟩ := hent x hx
    by_cases hdir : x.2.node.dirent.isDirectory = true
    · rw [if_pos hdir]; exact if_pos hdir
    · rw [if_neg hdir]
      refine ⟨?_, content (entryRel x), ?_, if_neg hdir⟩
      · intro e0
        have := fileTree_named hfuel x hx
        rw [e0] at this
        have hx0 : x.2.name = [] := List.eq_nil_of_length_eq_zero this
        exact (hHE x hx).name.1 (by simp [DirEnt.nameStr, hx0, decodeName])
      · rw [hrel he h1 h2]
        exact extract_ok (h4 (by rw [← h3]; simpa using hdir))
  have hnd : (listed.map entryRel).Nodup := by
    -- entries of the source have distinct places
    have h1 : (listed.map (fun x => (x.1, x.2.nameStr))).Perm (all.map (fun y => (slashPath y.1, y.2.name))) := by
      have := a4.map (fun k => (k.1, k.2.1))
      simpa [List.map_map, Function.comp_def, direntKey, entryKey] using this
    have h2 : ((all.map (fun y => (slashPath y.1, y.2.name))).map (fun k => hostComps k.1 ++ [k.2])).Nodup := by
      rw [List.map_map]
      refine List.Pairwise.map _ ?_ (List.Pairwise.and_mem.1 a1)
      rintro ⟨p, e⟩ ⟨q, f⟩ ⟨hm1, hm2, hne⟩ heq
      have he1 := (a2 p e).1 hm1
      have he2 := (a2 q f).1 hm2
      simp only [Function.comp_apply] at heq
      rw [hostComps_slashPath (dir_hostNames hn he1.1), hostComps_slashPath (dir_hostNames hn he2.1)] at heq
      obtain ⟨e1, e2⟩ := List.append_inj' heq rfl
      simp only [List.cons.injEq, and_true] at e2
      subst e1
      obtain ⟨hp, l, hl, hel⟩ := he1
      obtain ⟨_, l', hl', hfl⟩ := he2
      rw [hl] at hl'; cases hl'
      have := distinct_unique (hd p l hp hl) hel hfl (by rw [e2]; exact rfl)
      exact hne (by rw [this])
    have h3 := (h1.map (fun k => hostComps k.1 ++ [k.2])).nodup_iff.2 h2
    rw [List.map_map] at h3
    exact h3
  have hpf := fileTree_parents hfuel
  obtain ⟨fs', h1, h2⟩ := copyoutLoop_restores hf hfresh.clear (r := r) (nodeOf := nodeOf) listed [] fs
    ⟨by simp, by simp, by simp, fun q _ _ => rfl⟩ (by simpa using hpf) (by simpa using hHE) (by simpa using hnd)
    (fun x _ => hfresh.free x)
    (by simpa using hnode)
  rw [List.nil_append] at h2
  obtain ⟨f1, f2, f3, f4, f5⟩ := hfresh
  refine ⟨n, fs', ?_, ⟨?_, ?_, ?_⟩, ?_⟩
  · intro fuel hfu
    unfold copyoutDirectory
    rw [a3 fuel hfu]; exact h1
  · intro p e he hdir
    obtain ⟨x, hx, x1, x2, x3, _⟩ := hsrc p e he
    have := h2.placed x hx
    rw [hrel he x1 x2, ← List.append_assoc] at this
    rw [this]
    simp only [nodeOf]
    rw [if_pos (by rw [x3, hdir])]
  · intro p e he hdir
    obtain ⟨x, hx, x1, x2, x3, _⟩ := hsrc p e he
    have := h2.placed x hx
    rw [hrel he x1 x2, ← List.append_assoc] at this
    rw [this]
    simp only [nodeOf]
    rw [if_neg (by rw [x3, hdir]; decide), hrel he x1 x2]
  · intro q hq hne
    by_cases hc : ∃ y ∈ listed, placeOf h dest ++ q = placeOf h dest ++ entryRel y
    · obtain ⟨y, hy, e⟩ := hc
      obtain ⟨p, e', he, y1, y2, _⟩ := hent y hy
      exact ⟨p, e', he, by rw [List.append_cancel_left e, hrel he y1 y2]⟩
    · exfalso
      apply hne
      have hlen : ∀ {t : HostPath}, t ≠ [] → ¬ (placeOf h dest ++ t <+: placeOf h dest) := by
        intro t ht hp
        have := hp.length_le
        rw [List.length_append] at this
        exact ht (List.eq_nil_of_length_eq_zero (by omega))
      rw [h2.other _ (fun y hy e => hc ⟨y, hy, e⟩) (fun hw => absurd (way_prefix f2 hw) (hlen hq))]
      exact f5 _ (List.prefix_append _ _) (fun e => hlen hq (by rw [e]; exact List.prefix_refl _))
  · intro q hq
    by_cases hin : placeOf h dest <+: q
    · exact Or.inl hin
    · by_cases hw : OnTheWay h dest q
      · by_cases hne : listed = []
        · subst hne
          exact absurd (h2.other q (by simp) (fun _ => rfl)) hq
        · have hdir := h2.way hne q hw
          refine Or.inr ⟨hw, ?_, hdir⟩
          rcases f4 q hw with e | e
          · exact e
          · rw [hdir, e] at hq; exact absurd rfl hq
      · refine absurd (h2.other q (fun y _ e => hin ?_) (fun hw' => absurd hw' hw)) hq
        rw [e]; exact List.prefix_append _ _

end Xdvdfs
