import Verif.Props.CliUnpack

/-!
# C86, exactly: what unpacking does to the image file
-/

namespace Xdvdfs.Spec

/-- A file in the image whose bytes are `img` has the path `p` when the image is unpacked to `dest`. -/
def UnpacksOnto (h : Host) (img : Bytes) (fuel : Nat) (dest : Str) (p : HostPath) : Prop :=
  ∃ base vol tree x, offsetNew (fileDev img) = .ok base ∧ readVolume (offsetDev (fileDev img) base) = .ok vol ∧
    fileTree (offsetDev (fileDev img) base) vol.root fuel = .ok tree ∧ x ∈ tree ∧
    x.2.node.dirent.isDirectory = false ∧ x.2.node.dirent.nameLen ≠ 0 ∧
    placeOf h (pathJoin (pathJoin dest (trimSlashes x.1)) x.2.nameStr) = p

end Xdvdfs.Spec

namespace Xdvdfs.Props

open Xdvdfs Spec

namespace UnpackSelf

/-- An entry that is written to its own image leaves it empty. -/
theorem extract_nothing (base : Nat) (clones : Bool) (d : DiskData) {b : Bytes}
    (h : RawImage.extract ⟨[], base, clones⟩ d = .ok b) : b = [] := by
  unfold RawImage.extract at h
  split at h
  · cases h; rfl
  · next hd =>
    obtain ⟨off, h1, h⟩ := Res.bind_eq_ok.1 h
    split at h
    · cases h; simp [slice]
    · unfold readDataAll at h
      split at h
      · cases h; rfl
      · next h0 =>
        obtain ⟨off', h2, h⟩ := Res.bind_eq_ok.1 h
        change offsetRead (fileRead []) base off' d.data.size.toNat = .ok b at h
        unfold offsetRead fileRead at h
        repeat' split at h
        all_goals first | (cases h; simp [slice]; done) | cases h

theorem createDir_keeps {h : Host} {path : Str} {fs fs' : HostFs} {r} (hc : h.createDir path fs = (r, fs')) {q : HostPath}
    {n : HostNode} (hq : fs q = some n) : fs' q = some n := by
  unfold Host.createDir at hc
  split at hc
  · next p _ =>
    split at hc
    · cases hc; exact hq
    · next hp =>
      split at hc
      · cases hc
        by_cases e : q = p
        · rw [e, hp] at hq; cases hq
        · simp [HostFs.set, e, hq]
      · cases hc; exact hq
  all_goals (cases hc; exact hq)

theorem createDirAll_keeps_node {h : Host} {path : Str} {fs fs' : HostFs} {r} (hc : h.createDirAll path fs = (r, fs'))
    {q : HostPath} {n : HostNode} (hq : fs q = some n) : fs' q = some n := by
  rcases createDirAll_changes hc q with e | ⟨_, e, _⟩
  · rw [e, hq]
  · rw [hq] at e; cases e

/-- The entry is a file that is written, and its path is `p`. -/
def Onto (h : Host) (dest : Str) (p : HostPath) (x : Str × DirEnt) : Prop :=
  x.2.node.dirent.isDirectory = false ∧ x.2.node.dirent.nameLen ≠ 0 ∧
    placeOf h (pathJoin (pathJoin dest (trimSlashes x.1)) x.2.nameStr) = p

theorem writeFile_elsewhere {h : Host} {path : Str} {data : Res Bytes} {fs fs' : HostFs} {r}
    (hc : h.writeFile path data fs = (r, fs')) {q : HostPath} (hq : placeOf h path ≠ q) : fs' q = fs q := by
  rcases writeFile_changes hc with rfl | ⟨_, _, b, rfl⟩
  · rfl
  · simp [HostFs.set, Ne.symm hq]

theorem entry_other {h : Host} {image : HostPath} {img : Bytes} {base : Nat} {clones : Bool} {dest : Str}
    {x : Str × DirEnt} {fs : HostFs} (hf : fs image = some (.file img)) (hx : ¬ Onto h dest image x) {r} {fs' : HostFs}
    (hc : copyoutEntryAt h image base clones dest x fs = (r, fs')) :
    copyoutEntry h ⟨img, base, clones⟩ dest x fs = (r, fs') ∧ fs' image = some (.file img) := by
  unfold copyoutEntryAt at hc
  unfold copyoutEntry
  simp only at hc ⊢
  rcases hd : h.createDirAll (pathJoin dest (trimSlashes x.1)) fs with ⟨r1, fs1⟩
  have hf1 := createDirAll_keeps_node hd hf
  rw [hd] at hc
  cases r1 with
  | ok u =>
    simp only at hc ⊢
    by_cases hdir : x.2.node.dirent.isDirectory = true
    · rw [if_pos hdir] at hc ⊢
      exact ⟨hc, createDir_keeps hc hf1⟩
    · rw [if_neg hdir] at hc ⊢
      by_cases hl : x.2.node.dirent.nameLen = 0
      · rw [if_pos hl] at hc ⊢
        cases hc
        exact ⟨rfl, hf1⟩
      · rw [if_neg hl] at hc ⊢
        have hne : placeOf h (pathJoin (pathJoin dest (trimSlashes x.1)) x.2.nameStr) ≠ image :=
          fun e => hx ⟨by simpa using hdir, hl, e⟩
        rw [if_neg (fun hr => hne (resolve_place hr).symm)] at hc
        have : imageNow fs1 image = img := by unfold imageNow; rw [hf1]
        rw [this] at hc
        exact ⟨hc, by rw [writeFile_elsewhere hc hne]; exact hf1⟩
  | err e => cases hc; exact ⟨rfl, hf1⟩
  | panic => cases hc; exact ⟨rfl, hf1⟩
  | hang => cases hc; exact ⟨rfl, hf1⟩

theorem entry_onto {h : Host} {image : HostPath} {base : Nat} {clones : Bool} {dest : Str}
    {x : Str × DirEnt} {fs : HostFs} {b : Bytes} (hf : fs image = some (.file b)) (hx : Onto h dest image x) {r} {fs' : HostFs}
    (hc : copyoutEntryAt h image base clones dest x fs = (r, fs')) :
    (fs' image = some (.file b) ∨ fs' image = some (.file [])) ∧ (r = .ok () → fs' image = some (.file [])) := by
  unfold copyoutEntryAt at hc
  simp only at hc
  rcases hd : h.createDirAll (pathJoin dest (trimSlashes x.1)) fs with ⟨r1, fs1⟩
  have hf1 := createDirAll_keeps_node hd hf
  rw [hd] at hc
  cases r1 with
  | ok u =>
    simp only at hc
    rw [if_neg (by simp [hx.1]), if_neg hx.2.1] at hc
    cases hr : h.resolve fs1 (pathJoin (pathJoin dest (trimSlashes x.1)) x.2.nameStr) with
    | ok q =>
      have hq : q = image := (resolve_place hr).trans hx.2.2
      subst hq
      rw [if_pos hr] at hc
      unfold Host.writeFile at hc
      rw [hr] at hc
      simp only at hc
      split at hc
      · cases hc; exact ⟨.inl hf1, nofun⟩
      · split at hc
        · cases hc; exact ⟨.inl hf1, nofun⟩
        · split at hc
          · next b' hb =>
            rw [extract_nothing _ _ _ hb] at hc
            cases hc
            exact ⟨.inr (by simp [HostFs.set]), nofun⟩
          · cases hc; exact ⟨.inr (by simp [HostFs.set]), nofun⟩
        · split at hc
          · next b' hb =>
            rw [extract_nothing _ _ _ hb] at hc
            cases hc
            exact ⟨.inr (by simp [HostFs.set]), fun _ => by simp [HostFs.set]⟩
          all_goals (cases hc; exact ⟨.inr (by simp [HostFs.set]), nofun⟩)
    | err e =>
      unfold Host.writeFile at hc
      rw [hr] at hc
      cases hc; exact ⟨.inl hf1, nofun⟩
    | panic =>
      unfold Host.writeFile at hc
      rw [hr] at hc
      cases hc; exact ⟨.inl hf1, nofun⟩
    | hang =>
      unfold Host.writeFile at hc
      rw [hr] at hc
      cases hc; exact ⟨.inl hf1, nofun⟩
  | err e => cases hc; exact ⟨.inl hf1, nofun⟩
  | panic => cases hc; exact ⟨.inl hf1, nofun⟩
  | hang => cases hc; exact ⟨.inl hf1, nofun⟩

theorem entry_any {h : Host} {image : HostPath} {base : Nat} {clones : Bool} {dest : Str}
    {x : Str × DirEnt} {fs : HostFs} {b : Bytes} (hf : fs image = some (.file b)) {r} {fs' : HostFs}
    (hc : copyoutEntryAt h image base clones dest x fs = (r, fs')) :
    fs' image = some (.file b) ∨ fs' image = some (.file []) := by
  by_cases hx : Onto h dest image x
  · exact (entry_onto hf hx hc).1
  · exact .inl (entry_other hf hx hc).2

theorem loop_any {h : Host} {image : HostPath} {base : Nat} {clones : Bool} {dest : Str} :
    ∀ (xs : List (Str × DirEnt)) {fs : HostFs} {b : Bytes}, fs image = some (.file b) → ∀ {r} {fs' : HostFs},
    copyoutLoopAt h image base clones dest xs fs = (r, fs') →
    fs' image = some (.file b) ∨ fs' image = some (.file []) := by
  intro xs
  induction xs with
  | nil => intro fs b hf r fs' hc; cases hc; exact .inl hf
  | cons x xs ih =>
    intro fs b hf r fs' hc
    simp only [copyoutLoopAt] at hc
    rcases he : copyoutEntryAt h image base clones dest x fs with ⟨r1, fs1⟩
    rw [he] at hc
    have h1 := entry_any hf he
    cases r1 with
    | ok u =>
      simp only at hc
      rcases h1 with h1 | h1
      · exact ih h1 hc
      · exact .inr ((ih h1 hc).elim id id)
    | err e => cases hc; exact h1
    | panic => cases hc; exact h1
    | hang => cases hc; exact h1

theorem loop_other {h : Host} {image : HostPath} {base : Nat} {clones : Bool} {dest : Str} {img : Bytes} :
    ∀ (xs : List (Str × DirEnt)) {fs : HostFs}, fs image = some (.file img) → (∀ x ∈ xs, ¬ Onto h dest image x) →
    copyoutLoopAt h image base clones dest xs fs = copyoutLoop h ⟨img, base, clones⟩ dest xs fs ∧
    (copyoutLoopAt h image base clones dest xs fs).2 image = some (.file img) := by
  intro xs
  induction xs with
  | nil => intro fs hf _; exact ⟨rfl, hf⟩
  | cons x xs ih =>
    intro fs hf hx
    simp only [copyoutLoopAt, copyoutLoop]
    rcases he : copyoutEntryAt h image base clones dest x fs with ⟨r1, fs1⟩
    obtain ⟨h1, h2⟩ := entry_other hf (hx x (by simp)) he
    rw [h1]
    cases r1 with
    | ok u => exact ih h2 (fun y hy => hx y (by simp [hy]))
    | err e => exact ⟨rfl, h2⟩
    | panic => exact ⟨rfl, h2⟩
    | hang => exact ⟨rfl, h2⟩

theorem loop_onto {h : Host} {image : HostPath} {base : Nat} {clones : Bool} {dest : Str} :
    ∀ (xs : List (Str × DirEnt)) {fs : HostFs} {b : Bytes}, fs image = some (.file b) → (∃ x ∈ xs, Onto h dest image x) →
    ∀ {fs' : HostFs}, copyoutLoopAt h image base clones dest xs fs = (.ok (), fs') → fs' image = some (.file []) := by
  intro xs
  induction xs with
  | nil => rintro fs b _ ⟨x, hx, _⟩; cases hx
  | cons x xs ih =>
    intro fs b hf hx fs' hc
    simp only [copyoutLoopAt] at hc
    rcases he : copyoutEntryAt h image base clones dest x fs with ⟨r1, fs1⟩
    rw [he] at hc
    cases r1 with
    | ok u =>
      simp only at hc
      by_cases hox : Onto h dest image x
      · exact (loop_any xs ((entry_onto hf hox he).2 rfl) hc).elim id id
      · obtain ⟨y, hy, hoy⟩ := hx
        rcases List.mem_cons.1 hy with rfl | hy
        · exact absurd hoy hox
        · exact ih (entry_other hf hox he).2 ⟨y, hy, hoy⟩ hc
    | err e => cases hc
    | panic => cases hc
    | hang => cases hc

/-- What is recognised as an image is not empty. -/
theorem opened_nonempty {img : Bytes} {base : Nat} (h : offsetNew (fileDev img) = .ok base) : img ≠ [] := by
  rintro rfl
  have hv : ∀ o, readVolume (offsetDev (fileDev []) o) = .err .invalidVolume ∨
      readVolume (offsetDev (fileDev []) o) = .panic := by
    intro o
    have : (offsetDev (fileDev []) o).read (sectorSize * 32) 2048 = .err .io ∨
        (offsetDev (fileDev []) o).read (sectorSize * 32) 2048 = .panic := by
      show offsetRead (fileRead []) o (sectorSize * 32) 2048 = _ ∨ offsetRead (fileRead []) o (sectorSize * 32) 2048 = _
      unfold offsetRead fileRead
      split
      · left
        rw [if_neg (by decide), if_neg (by simp)]
      · right; rfl
    unfold readVolume
    rcases this with e | e <;> rw [e] <;> simp
  have : ∀ os, offsetNewLoop (fileDev []) os ≠ .ok base := by
    intro os
    induction os with
    | nil => nofun
    | cons o os ih =>
      unfold offsetNewLoop
      rcases hv o with e | e <;> rw [e]
      · exact ih
      · nofun
  exact this _ h

end UnpackSelf

open UnpackSelf

/-- C86, exactly, for images of any origin in any place, inside the destination or not, and whatever faults occur.  The
image file is the same afterwards, or it is empty.  If no file in the image gets the path of the image, the image is the
same, and the command does what it does on a copy of the image that nothing can change.  If it succeeds, the image is the
same if and only if this is so. -/
theorem C86_exactly (h : Host) (clones : Bool) (fuel : Nat) {fs : HostFs} {image dest : Str} {p : HostPath} {img : Bytes}
    (hst : h.stat fs image = some (p, .file img)) :
    (IsFile (cmdUnpackArgs h clones fuel fs image (some dest)).2 p img ∨
      IsFile (cmdUnpackArgs h clones fuel fs image (some dest)).2 p []) ∧
    (¬ UnpacksOnto h img fuel dest p → IsFile (cmdUnpackArgs h clones fuel fs image (some dest)).2 p img ∧
      cmdUnpackArgs h clones fuel fs image (some dest) = cmdUnpack h img clones dest fuel fs) ∧
    ((cmdUnpackArgs h clones fuel fs image (some dest)).1 = .ok () →
      (IsFile (cmdUnpackArgs h clones fuel fs image (some dest)).2 p img ↔ ¬ UnpacksOnto h img fuel dest p)) := by
  have hf := (stat_some hst).2.2
  unfold cmdUnpackArgs cmdUnpack
  simp only [hst]
  cases hb : offsetNew (fileDev img) with
  | ok base =>
    simp only
    cases hv : readVolume (offsetDev (fileDev img) base) with
    | ok vol =>
      simp only [copyoutDirectory, RawImage.dev]
      cases ht : fileTree (offsetDev (fileDev img) base) vol.root fuel with
      | ok tree =>
        simp only
        have hiff : UnpacksOnto h img fuel dest p ↔ ∃ x ∈ tree, Onto h dest p x := by
          constructor
          · rintro ⟨base', vol', tree', x, h1, h2, h3, h4, h5⟩
            rw [hb] at h1; cases h1
            rw [hv] at h2; cases h2
            rw [ht] at h3; cases h3
            exact ⟨x, h4, h5⟩
          · rintro ⟨x, h4, h5⟩
            exact ⟨base, vol, tree, x, hb, hv, ht, h4, h5⟩
        have hno : ¬ UnpacksOnto h img fuel dest p → ∀ x ∈ tree, ¬ Onto h dest p x :=
          fun hn x hx ho => hn (hiff.2 ⟨x, hx, ho⟩)
        refine ⟨loop_any tree hf rfl, fun hn => ?_, fun hok => ⟨fun hk hu => ?_, fun hn => ?_⟩⟩
        · obtain ⟨g1, g2⟩ := loop_other (h := h) (base := base) (clones := clones) (dest := dest) tree hf (hno hn)
          exact ⟨g2, g1⟩
        · rcases hc : copyoutLoopAt h p base clones dest tree fs with ⟨r, fs'⟩
          rw [hc] at hok hk
          simp only at hok hk
          subst hok
          have := loop_onto tree hf (hiff.1 hu) hc
          rw [show fs' p = some (.file img) from hk] at this
          cases this
          exact opened_nonempty hb rfl
        · exact (loop_other (h := h) (base := base) (clones := clones) (dest := dest) tree hf (hno hn)).2
      | err e => exact ⟨.inl hf, fun _ => ⟨hf, rfl⟩, nofun⟩
      | panic => exact ⟨.inl hf, fun _ => ⟨hf, rfl⟩, nofun⟩
      | hang => exact ⟨.inl hf, fun _ => ⟨hf, rfl⟩, nofun⟩
    | err e => exact ⟨.inl hf, fun _ => ⟨hf, rfl⟩, nofun⟩
    | panic => exact ⟨.inl hf, fun _ => ⟨hf, rfl⟩, nofun⟩
    | hang => exact ⟨.inl hf, fun _ => ⟨hf, rfl⟩, nofun⟩
  | err e => exact ⟨.inl hf, fun _ => ⟨hf, rfl⟩, nofun⟩
  | panic => exact ⟨.inl hf, fun _ => ⟨hf, rfl⟩, nofun⟩
  | hang => exact ⟨.inl hf, fun _ => ⟨hf, rfl⟩, nofun⟩

/-- `unpack g.iso .` in the directory where `g.iso` is, an image with a file `a` in it: the command succeeds, and the image
is the same afterwards, although it is inside the destination. -/
example : ∃ img, PackedFrom img (flatFs [(['a'], [1])]) (flatContent [(['a'], [1])]) ∧
    ∀ fuel clones, 2 < fuel →
      (cmdUnpackArgs sampleHost clones fuel (sampleHostFs.set [['w'], ['g', '.', 'i', 's', 'o']] (.file img))
        ['g', '.', 'i', 's', 'o'] (some ['.'])).1 = .ok () ∧
      placeOf sampleHost ['.'] <+: [['w'], ['g', '.', 'i', 's', 'o']] ∧
      ¬ UnpacksOnto sampleHost img fuel ['.'] [['w'], ['g', '.', 'i', 's', 'o']] ∧
      IsFile (cmdUnpackArgs sampleHost clones fuel (sampleHostFs.set [['w'], ['g', '.', 'i', 's', 'o']] (.file img))
        ['g', '.', 'i', 's', 'o'] (some ['.'])).2 [['w'], ['g', '.', 'i', 's', 'o']] img := by
  obtain ⟨s', hpk⟩ := flat_packs a1_single []
  obtain ⟨d, hd, _, hrun⟩ := single_run a1_single (by decide) hpk
  refine ⟨s'.dev.img, single_from a1_single (by unfold HostName; decide) hpk, fun fuel clones hf => ?_⟩
  have hno : ¬ UnpacksOnto sampleHost s'.dev.img fuel ['.'] [['w'], ['g', '.', 'i', 's', 'o']] := by
    rintro ⟨base, vol, tree, x, h1, h2, h3, h4, _, _, h7⟩
    obtain ⟨vol', d', k1, k2, k3, _, _⟩ := single_listing a1_single hpk
    have hag := offsetDev_zero (fileDev s'.dev.img)
    rw [offsetNew_zero k1] at h1
    cases h1
    rw [hag.readVolume, k1] at h2
    cases h2
    rw [hag.fileTree, k2 fuel hf] at h3
    cases h3
    rw [List.mem_singleton.1 h4] at h7
    simp only [k3] at h7
    revert h7
    decide
  have hst : sampleHost.stat (sampleHostFs.set [['w'], ['g', '.', 'i', 's', 'o']] (.file s'.dev.img))
      ['g', '.', 'i', 's', 'o'] = some ([['w'], ['g', '.', 'i', 's', 'o']], .file s'.dev.img) := rfl
  refine ⟨?_, by decide, hno, ((C86_exactly sampleHost clones fuel hst).2.1 hno).1⟩
  rw [hrun sampleHost clones _ _ _ ['.'] _ fuel hf hst rfl]
  have hr : sampleHost.resolve (sampleHostFs.set [['w'], ['g', '.', 'i', 's', 'o']] (.file s'.dev.img))
      (pathJoin (pathJoin ['.'] []) ['a']) = .ok [['w'], ['a']] := rfl
  rw [if_neg (by rw [hr]; simp)]
  rw [show imageNow (sampleHostFs.set [['w'], ['g', '.', 'i', 's', 'o']] (.file s'.dev.img))
    [['w'], ['g', '.', 'i', 's', 'o']] = s'.dev.img from rfl, hd]
  rfl

/-- `C86_image_kept_false` is the other case: a file in the image has the path of the image. -/
example : ∃ img, PackedFrom img (flatFs [(['g', '.', 'i', 's', 'o'], [7])]) (flatContent [(['g', '.', 'i', 's', 'o'], [7])]) ∧
    ∀ fuel, 2 < fuel → UnpacksOnto sampleHost img fuel ['.'] [['w'], ['g', '.', 'i', 's', 'o']] := by
  obtain ⟨s', hpk⟩ := flat_packs ownName_ok []
  refine ⟨s'.dev.img, single_from ownName_ok (by unfold HostName; decide) hpk, fun fuel hf => ?_⟩
  obtain ⟨vol, d, k1, k2, k3, k4, _⟩ := single_listing ownName_ok hpk
  have hag := offsetDev_zero (fileDev s'.dev.img)
  refine ⟨0, vol, [([], d)], ([], d), offsetNew_zero k1, by rw [hag.readVolume, k1], by rw [hag.fileTree, k2 fuel hf],
    by simp, k4, ?_, by simp only [k3]; decide⟩
  intro e
  have := fileTree_named (k2 3 (by omega)) _ (List.mem_singleton.2 rfl)
  rw [e] at this
  have hx0 : d.name = [] := List.eq_nil_of_length_eq_zero this
  rw [DirEnt.nameStr, hx0] at k3
  cases k3

end Xdvdfs.Props
