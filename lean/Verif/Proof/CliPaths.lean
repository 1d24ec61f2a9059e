import Verif.Spec.CliPaths
import Verif.Proof.Unpack

/-!
# Paths on the command line
-/

namespace Xdvdfs

open Spec

theorem stat_some {h : Host} {fs : HostFs} {path : Str} {p : HostPath} {n : HostNode}
    (hs : h.stat fs path = some (p, n)) : h.resolve fs path = .ok p ∧ p = placeOf h path ∧ fs p = some n := by
  unfold Host.stat at hs
  split at hs
  · next q hq =>
    split at hs
    · next hd => cases hs; exact ⟨hq, resolve_place hq, hd⟩
    · next d hd =>
      split at hs
      · cases hs
      · cases hs; exact ⟨hq, resolve_place hq, hd⟩
    · cases hs
  · cases hs

theorem getLast_splitSlash : ∀ (s : Str), s.getLast? = some '/' → (splitSlash s).getLast? = some [] := by
  intro s hs
  obtain ⟨b, rfl⟩ := getLast_split hs
  rw [splitSlash_join]
  simp [splitSlash]

theorem openOutput_ok {h : Host} {fs fs1 : HostFs} {path : Str} {p : HostPath}
    (ho : h.openOutput path fs = .ok (p, fs1)) :
    h.resolve fs path = .ok p ∧ p = placeOf h path ∧ fs p ≠ some .dir ∧ path.getLast? ≠ some '/' ∧
      fs1 = fs.set p (.file []) := by
  unfold Host.openOutput at ho
  split at ho
  · next q hq =>
    split at ho
    · cases ho
    · next hc =>
      cases ho
      refine ⟨hq, resolve_place hq, fun h => hc (.inl h), fun h => hc (.inr (.inl (getLast_splitSlash _ h))), rfl⟩
  · cases ho
  · cases ho
  · cases ho

/-- What the checks before packing ensure.  An output that exists is not in the source; one that does not exist may be,
if its path contains `..`. -/
theorem packOpenArg_ok {h : Host} {fs fs1 : HostFs} {src out : HostPath} {image : Str}
    (ho : packOpenArg h fs src image = .ok (out, fs1)) :
    out = placeOf h image ∧ h.resolve fs image = .ok out ∧ fs out ≠ some .dir ∧ fs1 = fs.set out (.file []) ∧
    (fs out ≠ none → ¬ src <+: out) ∧ (['.', '.'] ∉ hostComps image → ¬ src <+: out) := by
  unfold packOpenArg at ho
  split at ho
  · next abs ha =>
    split at ho
    · cases ho
    · split at ho
      · cases ho
      · next hp =>
        have hp : ¬ src <+: abs := by simpa using hp
        obtain ⟨h1, h2, h3, h4, h5⟩ := openOutput_ok ho
        have hex : fs out ≠ none → abs = out := by
          intro hne
          unfold absolutePath at ha
          have : ∃ n, h.stat fs image = some (out, n) := by
            unfold Host.stat
            rw [h1]
            cases hn : fs out with
            | none => exact absurd hn hne
            | some n =>
              cases n with
              | dir => exact absurd hn h3
              | file d => simp [hn, h4]
          obtain ⟨n, hn⟩ := this
          rw [hn] at ha
          cases ha; rfl
        refine ⟨h2, h1, h3, h5, fun hne => by rw [← hex hne]; exact hp, fun hdd => ?_⟩
        by_cases hne : fs out = none
        · have : abs = out := by
            unfold absolutePath at ha
            split at ha
            · next p n hs =>
              obtain ⟨_, g2, g3⟩ := stat_some hs
              rw [← h2] at g2
              rw [g2, hne] at g3; cases g3
            · unfold lexAbsolute at ha
              split at ha
              · cases ha
              · cases ha
                rw [h2]
                unfold placeOf
                rw [stepsFrom_below _ _ hdd]
          rw [← this]; exact hp
        · rw [← hex hne]; exact hp
  · cases ho
  · cases ho
  · cases ho

/-- The states of the host during `cmd_pack_path` differ from the first one only in the output. -/
theorem packPathArg_seen {h : Host} {t : Tool} {read : HostFs → HostPath → SourceFs} {faults : Faults} {fs st : HostFs}
    {src : HostPath} {image : Str}
    (hs : st ∈ (packPathArg h t read faults fs src image).1 ∨ (packPathArg h t read faults fs src image).2 = .ok st) :
    ∃ out fs1, packOpenArg h fs src image = .ok (out, fs1) ∧ ∀ q, q ≠ out → st q = fs q := by
  unfold packPathArg at hs
  split at hs
  · simp at hs
  · next node hnode =>
    split at hs
    · next out fs1 ho =>
      refine ⟨out, fs1, ho, ?_⟩
      have h1 := (packOpenArg_ok ho).2.2.2.1
      have k0 : ∀ q, q ≠ out → fs1 q = fs q := fun q hq => by rw [h1, set_other hq]
      have k1 : ∀ b q, q ≠ out → (fs1.set out (.file b)) q = fs q := fun b q hq => by rw [set_other hq]; exact k0 q hq
      split at hs
      · simp only at hs
        split at hs <;>
          simp only [List.mem_cons, List.not_mem_nil, or_false, reduceCtorEq, Res.ok.injEq] at hs
        · rcases hs with (rfl | rfl | rfl) | rfl <;> first | exact k0 | exact k1 _
        · rcases hs with rfl | rfl | rfl <;> first | exact k0 | exact k1 _
        · rcases hs with rfl | rfl | rfl <;> first | exact k0 | exact k1 _
        · rcases hs with rfl | rfl | rfl <;> first | exact k0 | exact k1 _
      · simp only at hs
        split at hs <;>
          simp only [List.mem_cons, List.not_mem_nil, or_false, reduceCtorEq, Res.ok.injEq] at hs
        · rcases hs with (rfl | rfl | rfl) | rfl <;> first | exact k0 | exact k1 _
        · rcases hs with rfl | rfl | rfl <;> first | exact k0 | exact k1 _
        · rcases hs with rfl | rfl | rfl <;> first | exact k0 | exact k1 _
        · rcases hs with rfl | rfl | rfl <;> first | exact k0 | exact k1 _
    · simp at hs
    · simp at hs
    · simp at hs

/-- A successful `cmd_pack_path` of a directory. -/
theorem packPathArg_dir_ok {h : Host} {t : Tool} {read : HostFs → HostPath → SourceFs} {faults : Faults}
    {fs st : HostFs} {src : HostPath} {image : Str} (hdir : fs src = some .dir)
    (hs : (packPathArg h t read faults fs src image).2 = .ok st) :
    ∃ out b, packOpenArg h fs src image = .ok (out, fs.set out (.file [])) ∧
      packFile (read (fs.set out (.file [])) src) (cliPolicy t.early) faults t.fuel = (.ok (), b) ∧
      st = fs.set out (.file b.img) := by
  unfold packPathArg at hs
  rw [hdir] at hs
  simp only at hs
  cases ho : packOpenArg h fs src image with
  | ok x =>
    obtain ⟨out, fs1⟩ := x
    obtain ⟨_, _, _, rfl, _, _⟩ := packOpenArg_ok ho
    rw [ho] at hs
    simp only at hs
    refine ⟨out, ?_⟩
    rcases hc : packFile (read (fs.set out (.file [])) src) (cliPolicy t.early) faults t.fuel with ⟨res, b⟩
    rw [hc] at hs
    cases res with
    | ok u =>
      cases u
      simp only [Res.ok.injEq] at hs
      refine ⟨b, rfl, rfl, ?_⟩
      rw [← hs]
      funext q
      by_cases hq : q = out <;> simp [HostFs.set, hq]
    | err e => cases hs
    | panic => cases hs
    | hang => cases hs
  | err e => rw [ho] at hs; cases hs
  | panic => rw [ho] at hs; cases hs
  | hang => rw [ho] at hs; cases hs

/-! ## File names -/

theorem splitExt_stem (name : Str) (hdd : name ≠ ['.', '.']) : HasStem name (splitExt name).1 := by
  unfold splitExt
  rw [if_neg hdd]
  have hsplit := List.takeWhile_append_dropWhile (p := fun c => decide (c ≠ '.')) (l := name.reverse)
  have hname : name = (name.reverse.dropWhile (fun c => decide (c ≠ '.'))).reverse ++
      (name.reverse.takeWhile (fun c => decide (c ≠ '.'))).reverse := by
    rw [← List.reverse_append, hsplit, List.reverse_reverse]
  have hnodot : '.' ∉ (name.reverse.takeWhile (fun c => decide (c ≠ '.'))).reverse := by
    intro hm
    rw [List.mem_reverse] at hm
    have := List.all_takeWhile (p := fun c => decide (c ≠ '.')) (l := name.reverse)
    rw [List.all_eq_true] at this
    simpa using this _ hm
  cases hd : name.reverse.dropWhile (fun c => decide (c ≠ '.')) with
  | nil =>
    rw [hd] at hname
    simp only [List.reverse_nil, List.nil_append] at hname
    exact .inr ⟨rfl, fun hm => hnodot (by rw [← hname]; exact List.mem_of_mem_drop hm)⟩
  | cons c before =>
    have hc : c = '.' := by
      have h1 := List.head?_dropWhile_not (fun c => decide (c ≠ '.')) name.reverse
      rw [hd] at h1
      simpa using h1
    subst hc
    rw [hd] at hname
    simp only [List.reverse_cons, List.append_assoc, List.cons_append, List.nil_append] at hname
    simp only
    split
    · next hb =>
      subst hb
      simp only [List.reverse_nil, List.nil_append] at hname
      refine .inr ⟨rfl, ?_⟩
      rw [hname]
      simpa using hnodot
    · next hb =>
      refine .inl ⟨_, hname, hnodot, by simpa using hb⟩

theorem HasStem.unique {name s s' : Str} (h : HasStem name s) (h' : HasStem name s') : s = s' := by
  have key : ∀ {s s' : Str}, HasStem name s → (∃ ext, name = s' ++ '.' :: ext ∧ '.' ∉ ext ∧ s' ≠ []) → s = s' := by
    rintro s s' (⟨e, h1, h2, _⟩ | ⟨rfl, h2⟩) ⟨e', h1', h2', h3'⟩
    · rw [h1] at h1'
      rcases List.append_eq_append_iff.1 h1' with ⟨c, h3, h4⟩ | ⟨c, h3, h4⟩
      · cases c with
        | nil => simpa using h3.symm
        | cons x xs =>
          simp only [List.cons_append, List.cons.injEq] at h4
          exact absurd (by rw [h4.2]; simp) h2
      · cases c with
        | nil => simpa using h3
        | cons x xs =>
          simp only [List.cons_append, List.cons.injEq] at h4
          exact absurd (by rw [h4.2]; simp) h2'
    · exfalso
      cases s' with
      | nil => exact h3' rfl
      | cons x xs => rw [h1'] at h2; simp at h2
  rcases h' with h' | ⟨rfl, h2'⟩
  · exact key h h'
  · rcases h with h | ⟨rfl, _⟩
    · exact (key (.inr ⟨rfl, h2'⟩) h).symm
    · rfl

theorem stdWithExtension_stem {name ext : Str} (hdd : name ≠ ['.', '.']) (he : ext ≠ []) :
    ∃ stem, HasStem name stem ∧ stdWithExtension name ext = stem ++ '.' :: ext := by
  refine ⟨_, splitExt_stem name hdd, ?_⟩
  unfold stdWithExtension
  rw [if_neg he]

theorem stdWithExtension_nil {name : Str} (hdd : name ≠ ['.', '.']) : HasStem name (stdWithExtension name []) := by
  unfold stdWithExtension
  rw [if_pos rfl]
  exact splitExt_stem name hdd

/-! ## Strings of resolved paths -/

theorem hostComps_flatMap : ∀ {p : HostPath}, (∀ c ∈ p, c ≠ [] ∧ '/' ∉ c) →
    hostComps (p.flatMap (fun c => '/' :: c)) = p := by
  intro p
  induction p with
  | nil => intro _; rfl
  | cons c cs ih =>
    intro hp
    have hc := hp c (by simp)
    have : (c :: cs).flatMap (fun c => '/' :: c) = [] ++ '/' :: (c ++ cs.flatMap (fun c => '/' :: c)) := by simp
    rw [this, hostComps_join, hostComps_nil, List.nil_append]
    cases cs with
    | nil => simp only [List.flatMap_nil, List.append_nil]; exact hostComps_plain hc.2 hc.1
    | cons d ds =>
      have h2 : (d :: ds).flatMap (fun c => '/' :: c) = '/' :: (d ++ ds.flatMap (fun c => '/' :: c)) := by simp
      have ih' := ih (fun c hc => hp c (by simp [hc]))
      rw [h2] at ih' ⊢
      rw [hostComps_join, hostComps_plain hc.2 hc.1]
      have h3 : '/' :: (d ++ ds.flatMap (fun c => '/' :: c)) = [] ++ '/' :: (d ++ ds.flatMap (fun c => '/' :: c)) := rfl
      rw [h3, hostComps_join, hostComps_nil, List.nil_append] at ih'
      rw [ih']; rfl

theorem pathStr_place (h : Host) {p : HostPath} (hp : ∀ c ∈ p, HostName c) : placeOf h (pathStr p) = p := by
  unfold pathStr placeOf
  split
  · next hn => subst hn; rfl
  · next hn =>
    rw [hostComps_flatMap (fun c hc => ⟨(hp c hc).1, (hp c hc).2.1⟩), stepsFrom_below _ _ (fun hm => (hp _ hm).2.2.2.2 rfl)]
    have : h.start (p.flatMap (fun c => '/' :: c)) = [] := by
      cases p with
      | nil => exact absurd rfl hn
      | cons c cs => simp [Host.start]
    rw [this, List.nil_append, List.filter_eq_self.2 (fun c hc => by simpa using (hp c hc).2.2.2.1)]

/-- The components of what exists are names. -/
theorem properNames_comps {fs : HostFs} (hn : ProperNames fs) (hw : WellFormedHost fs) : ∀ (n : Nat) {p : HostPath},
    p.length = n → fs p ≠ none → ∀ c ∈ p, HostName c := by
  intro n
  induction n with
  | zero => intro p hp _ c hc; rw [List.length_eq_zero_iff.1 hp] at hc; cases hc
  | succ n ih =>
    intro p hp hne c hc
    rcases List.eq_nil_or_concat p with rfl | ⟨b, d, rfl⟩
    · cases hc
    · rw [List.concat_eq_append] at hc hne hp
      rcases List.mem_append.1 hc with hc | hc
      · refine ih (p := b) (by simp at hp; omega) ?_ c hc
        rw [hw.2 b d hne]; nofun
      · rw [List.mem_singleton.1 hc]; exact hn b d hne

/-! ## Unpacking an image that is a file of the host -/

theorem hostWalk_dirs {fs : HostFs} : ∀ (cs : List Str) (cur : HostPath) {p : HostPath}, hostWalk fs cur cs = .ok p →
    ∀ k, k < cs.length → fs (stepsFrom cur (cs.take k)) = some .dir := by
  intro cs
  induction cs with
  | nil => intro cur p _ k hk; simp at hk
  | cons c cs ih =>
    intro cur p h k hk
    simp only [hostWalk] at h
    split at h
    · cases h
    · next hd =>
      have hd : fs cur = some .dir := by simpa using hd
      cases k with
      | zero => simpa [stepsFrom] using hd
      | succ k =>
        have hk : k < cs.length := by simpa using hk
        simp only [List.take_succ_cons, stepsFrom]
        split at h
        · next h1 => rw [if_pos h1]; exact ih _ h k hk
        · next h1 =>
          rw [if_neg h1]
          split at h
          · next h2 => rw [if_pos h2]; exact ih _ h k hk
          · next h2 => rw [if_neg h2]; exact ih _ h k hk

/-- As long as the image is not inside the destination, unpacking it from a file of the host is unpacking its bytes. -/
theorem copyoutEntryAt_eq {h : Host} {image : HostPath} {img : Bytes} {base : Nat} {clones : Bool} {dest : Str}
    {x : Str × DirEnt} {fs : HostFs} (hs : Sane h fs) (hn : '/' ∉ x.2.nameStr) (hd : ['.', '.'] ∉ hostComps x.1)
    (hf : fs image = some (.file img)) (hout : ¬ placeOf h dest <+: image) :
    copyoutEntryAt h image base clones dest x fs = copyoutEntry h ⟨img, base, clones⟩ dest x fs := by
  unfold copyoutEntryAt copyoutEntry
  simp only
  cases hc : h.createDirAll (pathJoin dest (trimSlashes x.1)) fs with
  | mk r1 fs1 =>
  cases r1 with
  | ok u =>
    simp only
    split
    · rfl
    · split
      · rfl
      · have hf1 : fs1 image = some (.file img) := by
          rcases createDirAll_changes hc image with e | ⟨_, e, _⟩
          · rw [e, hf]
          · rw [hf] at e; cases e
        have hs1 : Sane h fs1 := ⟨createDirAll_wellFormed hc hs.wf, createDirAll_keeps hc hs.cwd⟩
        have hpl : fs1 (placeOf h (entryDir dest x)) = some .dir := createDirAll_place hc hs.cwd
        have hne : h.resolve fs1 (pathJoin (pathJoin dest (trimSlashes x.1)) x.2.nameStr) ≠ .ok image := by
          intro hr
          have hp : image = placeOf h (entryPath dest x) := resolve_place hr
          by_cases e : x.2.nameStr = ['.', '.']
          · rw [hp, entryPath_place h dest hn, e] at hf1
            have : hostComps ['.', '.'] = [['.', '.']] := by decide
            rw [this] at hf1
            simp only [stepsFrom, if_true] at hf1
            rw [if_neg (by decide), WellFormedHost.dropLast hs1.wf hpl] at hf1
            cases hf1
          · apply hout
            rw [hp, entryPath_place h dest hn, entryDir_place]
            refine (stepsFrom_prefix hd).trans (stepsFrom_prefix ?_)
            by_cases e0 : x.2.nameStr = []
            · rw [e0, hostComps_nil]; simp
            · rw [hostComps_plain hn e0]; simp only [List.mem_singleton]; exact fun e' => e e'.symm
        rw [if_neg hne]
        unfold imageNow
        rw [hf1]
  | err e => rfl
  | panic => rfl
  | hang => rfl

theorem copyoutLoopAt_eq {h : Host} {image : HostPath} {img : Bytes} {base : Nat} {clones : Bool} {dest : Str}
    (hout : ¬ placeOf h dest <+: image) : ∀ (B A : List (Str × DirEnt)) (fs : HostFs),
    Sane h fs → ParentsFirst (A ++ B) → (∀ x ∈ B, '/' ∉ x.2.nameStr) →
    (∀ y ∈ A, ['.', '.'] ∉ hostComps y.1 ∧ '/' ∉ y.2.nameStr ∧
      (y.2.node.dirent.isDirectory = true → y.2.nameStr ≠ ['.', '.'])) →
    fs image = some (.file img) →
    copyoutLoopAt h image base clones dest B fs = copyoutLoop h ⟨img, base, clones⟩ dest B fs := by
  intro B
  induction B with
  | nil => intro A fs _ _ _ _ _; rfl
  | cons x xs ih =>
    intro A fs hs hp hn hA hf
    have hx : ['.', '.'] ∉ hostComps x.1 := by
      rcases hp A x xs rfl with e | ⟨y, hy, hyd, e⟩
      · rw [e, hostComps_nil]; simp
      · obtain ⟨g1, g2, g3⟩ := hA y hy
        rw [e, hostComps_join]
        simp only [List.mem_append, not_or]
        refine ⟨g1, ?_⟩
        by_cases e0 : y.2.nameStr = []
        · rw [e0, hostComps_nil]; simp
        · rw [hostComps_plain g2 e0]; simp only [List.mem_singleton]; exact fun e' => g3 hyd e'.symm
    simp only [copyoutLoopAt, copyoutLoop]
    rw [copyoutEntryAt_eq hs (hn x (by simp)) hx hf hout]
    cases hc : copyoutEntry h ⟨img, base, clones⟩ dest x fs with
    | mk r1 fs1 =>
    obtain ⟨h1, h2⟩ := copyoutEntry_contained hc hs (hn x (by simp)) hx
    cases r1 with
    | ok u =>
      simp only
      obtain ⟨h3, h4⟩ := h2 rfl
      refine ih (A ++ [x]) fs1 h3 (by simpa using hp) (fun y hy => hn y (by simp [hy])) ?_ ?_
      · intro y hy
        rcases List.mem_append.1 hy with hy | hy
        · exact hA y hy
        · simp only [List.mem_singleton] at hy
          subst hy
          exact ⟨hx, hn _ (by simp), h4⟩
      · apply Classical.byContradiction
        intro hne
        rcases h1 image (by rw [hf]; exact hne) with g | ⟨_, g, _⟩
        · exact hout g
        · rw [hf] at g; cases g
    | err e => rfl
    | panic => rfl
    | hang => rfl

theorem cmdUnpackArgs_eq {h : Host} {clones : Bool} {fuel : Nat} {fs : HostFs} {image dest : Str} {p : HostPath}
    {img : Bytes} (hs : Sane h fs) (hst : h.stat fs image = some (p, .file img)) (hn : NoSlashNames img fuel)
    (hout : ¬ placeOf h dest <+: p) :
    cmdUnpackArgs h clones fuel fs image (some dest) = cmdUnpack h img clones dest fuel fs := by
  unfold cmdUnpackArgs cmdUnpack
  simp only [hst]
  cases hb : offsetNew (fileDev img) with
  | ok base =>
    simp only
    cases hv : readVolume (offsetDev (fileDev img) base) with
    | ok vol =>
      simp only [copyoutDirectory, RawImage.dev]
      cases ht : fileTree (offsetDev (fileDev img) base) vol.root fuel with
      | ok tree =>
        exact copyoutLoopAt_eq hout tree [] fs hs (fileTree_parents ht) (hn base vol tree hb hv ht) (by simp)
          (stat_some hst).2.2
      | err e => rfl
      | panic => rfl
      | hang => rfl
    | err e => rfl
    | panic => rfl
    | hang => rfl
  | err e => rfl
  | panic => rfl
  | hang => rfl

theorem fileName_last {image name : Str} (h : LastComponent image name) (hn : name ≠ ['.', '.']) :
    fileName image = some name := by
  obtain ⟨before, hb⟩ := h
  unfold fileName
  rw [hb]
  simp [hn]

theorem cmdUnpackArgs_default {h : Host} {clones : Bool} {fuel : Nat} {fs : HostFs} {image name stem : Str}
    (hl : LastComponent image name) (hn : name ≠ ['.', '.']) (hs : HasStem name stem) :
    cmdUnpackArgs h clones fuel fs image none = cmdUnpackArgs h clones fuel fs image (some stem) := by
  have : stdWithExtension name [] = stem := HasStem.unique (stdWithExtension_nil hn) hs
  unfold cmdUnpackArgs
  simp only [fileName_last hl hn, this]

/-- Nothing below a place changes while something is unpacked elsewhere. -/
theorem changes_elsewhere {h : Host} {dest : Str} {a b : HostFs} (hc : ChangesOnlyInside h dest a b)
    (hdd : ['.', '.'] ∉ hostComps dest) {place : HostPath} (h1 : ¬ placeOf h dest <+: place)
    (h2 : ¬ place <+: placeOf h dest) {q : HostPath} (hq : place <+: q) : b q = a q := by
  apply Classical.byContradiction
  intro hne
  rcases hc q hne with g | ⟨⟨k, g⟩, _, _⟩
  · rcases List.prefix_or_prefix_of_prefix g hq with e | e
    · exact h1 e
    · exact h2 e
  · apply h2
    refine hq.trans ?_
    rw [g]
    unfold placeOf
    rw [stepsFrom_below _ _ hdd, stepsFrom_below _ _ (fun hm => hdd (List.mem_of_mem_take hm))]
    exact (List.prefix_append_right_inj _).2 ((List.take_prefix k _).filter _)

theorem onTheWay_prefix {h : Host} {dest : Str} (hdd : ['.', '.'] ∉ hostComps dest) {q : HostPath}
    (hq : OnTheWay h dest q) : q <+: placeOf h dest := by
  obtain ⟨k, g⟩ := hq
  rw [g]
  unfold placeOf
  rw [stepsFrom_below _ _ hdd, stepsFrom_below _ _ (fun hm => hdd (List.mem_of_mem_take hm))]
  exact (List.prefix_append_right_inj _).2 ((List.take_prefix k _).filter _)

/-- A fresh place stays fresh while something is unpacked elsewhere. -/
theorem fresh_elsewhere {h : Host} {dest dest' : Str} {a b : HostFs} (hc : ChangesOnlyInside h dest a b)
    (hdd : ['.', '.'] ∉ hostComps dest) (h1 : ¬ placeOf h dest <+: placeOf h dest')
    (h2 : ¬ placeOf h dest' <+: placeOf h dest) (hf : FreshDest h dest' a) : FreshDest h dest' b := by
  obtain ⟨f1, f2, f3, f4, f5⟩ := hf
  have hway : ∀ q, OnTheWay h dest' q → b q = a q ∨ b q = some .dir := by
    intro q hq
    by_cases he : b q = a q
    · exact .inl he
    · rcases hc q he with g | ⟨_, _, g⟩
      · exact absurd (g.trans (onTheWay_prefix f2 hq)) h1
      · exact .inr g
  refine ⟨f1, f2, ?_, ?_, ?_⟩
  · rcases hway (h.start dest') ⟨0, by simp [stepsFrom]⟩ with e | e
    · rw [e, f3]
    · exact e
  · intro q hq
    rcases hway q hq with e | e
    · rw [e]; exact f4 q hq
    · exact .inr e
  · intro q hq hne
    rw [changes_elsewhere hc hdd h1 h2 hq]
    exact f5 q hq hne

/-! ## Directories stay directories -/

theorem copyoutEntry_keeps {h : Host} {r : RawImage} {dest : Str} {x : Str × DirEnt} {fs fs' : HostFs} {res}
    (hrun : copyoutEntry h r dest x fs = (res, fs')) (hs : Sane h fs) :
    Sane h fs' ∧ ∀ q, fs q = some .dir → fs' q = some .dir := by
  unfold copyoutEntry at hrun
  simp only at hrun
  cases hc : h.createDirAll (entryDir dest x) fs with
  | mk r1 fs1 =>
  have hs1 : Sane h fs1 := ⟨createDirAll_wellFormed hc hs.wf, createDirAll_keeps hc hs.cwd⟩
  have hk : ∀ q, fs q = some .dir → fs1 q = some .dir := fun q hq => createDirAll_keeps hc hq
  have keep : ∀ {p n}, fs1 p ≠ some .dir → ∀ q, fs q = some .dir → (fs1.set p n) q = some .dir := by
    intro p n hp q hq
    rw [set_other]
    · exact hk q hq
    · intro e; rw [← e] at hp; exact hp (hk q hq)
  rw [hc] at hrun
  cases r1 with
  | ok u =>
    simp only at hrun
    split at hrun
    · rcases createDir_changes hrun with ⟨e1, _⟩ | ⟨_, e2, e3, e4⟩
      · rw [e1]; exact ⟨hs1, hk⟩
      · rw [e4]; exact ⟨hs1.set e3 (by rw [e2]; simp), keep (by rw [e2]; simp)⟩
    · split at hrun
      · cases hrun; exact ⟨hs1, hk⟩
      · rcases writeFile_changes hrun with e1 | ⟨e1, e2, b, e3⟩
        · rw [e1]; exact ⟨hs1, hk⟩
        · rw [e3]; exact ⟨hs1.set e2 e1, keep e1⟩
  | err e => cases hrun; exact ⟨hs1, hk⟩
  | panic => cases hrun; exact ⟨hs1, hk⟩
  | hang => cases hrun; exact ⟨hs1, hk⟩

theorem copyoutLoop_keeps {h : Host} {r : RawImage} {dest : Str} : ∀ (l : List (Str × DirEnt)) (fs : HostFs) {res fs'},
    copyoutLoop h r dest l fs = (res, fs') → Sane h fs → Sane h fs' ∧ ∀ q, fs q = some .dir → fs' q = some .dir := by
  intro l
  induction l with
  | nil => intro fs res fs' hrun hs; cases hrun; exact ⟨hs, fun _ h => h⟩
  | cons x xs ih =>
    intro fs res fs' hrun hs
    simp only [copyoutLoop] at hrun
    cases hc : copyoutEntry h r dest x fs with
    | mk r1 fs1 =>
    obtain ⟨h1, h2⟩ := copyoutEntry_keeps hc hs
    rw [hc] at hrun
    cases r1 with
    | ok u =>
      obtain ⟨g1, g2⟩ := ih fs1 hrun h1
      exact ⟨g1, fun q hq => g2 q (h2 q hq)⟩
    | err e => cases hrun; exact ⟨h1, h2⟩
    | panic => cases hrun; exact ⟨h1, h2⟩
    | hang => cases hrun; exact ⟨h1, h2⟩

theorem cmdUnpack_keeps {h : Host} {img : Bytes} {clones : Bool} {dest : Str} {fuel : Nat} {fs : HostFs} (hs : Sane h fs) :
    Sane h (cmdUnpack h img clones dest fuel fs).2 ∧
      ∀ q, fs q = some .dir → (cmdUnpack h img clones dest fuel fs).2 q = some .dir := by
  have idle : Sane h fs ∧ ∀ q, fs q = some .dir → fs q = some .dir := ⟨hs, fun _ h => h⟩
  unfold cmdUnpack
  split
  · split
    · unfold copyoutDirectory
      split
      · exact copyoutLoop_keeps _ _ rfl hs
      all_goals exact idle
    all_goals exact idle
  all_goals exact idle

/-- A file outside the destination stays as it is while something is unpacked. -/
theorem stat_elsewhere {h : Host} {dest image : Str} {a b : HostFs} (hc : ChangesOnlyInside h dest a b)
    (hk : ∀ q, a q = some .dir → b q = some .dir) {p : HostPath} {img : Bytes}
    (hst : h.stat a image = some (p, .file img)) (hout : ¬ placeOf h dest <+: p) :
    h.stat b image = some (p, .file img) := by
  obtain ⟨s1, s2, s3⟩ := stat_some hst
  have hp : b p = some (.file img) := by
    rw [← s3]
    apply Classical.byContradiction
    intro hne
    rcases hc p hne with g | ⟨_, g, _⟩
    · exact hout g
    · rw [s3] at g; cases g
  have hr : h.resolve b image = .ok p := by
    have hd := hostWalk_dirs _ _ (resolve_walk s1)
    have hw' := hostWalk_ok (fs := b) (hostComps image) (h.start image) (fun k hk' => hk _ (hd k hk'))
    unfold Host.resolve at s1 ⊢
    split at s1
    · cases s1
    · next hcond => rw [if_neg hcond, hw', s2]; rfl
  unfold Host.stat at hst ⊢
  rw [s1] at hst
  rw [hr]
  simp only [s3] at hst
  simp only [hp]
  exact hst

end Xdvdfs
