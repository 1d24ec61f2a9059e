import Verif.Proof.InfoText
import Verif.Props.Show

/-!
# What is printed tells images apart: C150
-/

namespace Xdvdfs.Props

open TabWriter Spec

/-- C150 for `ls` (part): if two listings, of any two images, print the same text, and the names have no line break, then
the same names were listed, in the same order. -/
theorem C150_ls_partial {c₁ c₂ : Bool} {dev₁ dev₂ : Dev} {path₁ path₂ : Str} {scan₁ scan₂ : Bool} {fuel₁ fuel₂ : Nat}
    {names₁ names₂ : List Str} (h₁ : cmdLs c₁ dev₁ path₁ scan₁ fuel₁ = .ok names₁)
    (h₂ : cmdLs c₂ dev₂ path₂ scan₂ fuel₂ = .ok names₂) (o₁ : ∀ s ∈ names₁, OneLine s) (o₂ : ∀ s ∈ names₂, OneLine s) :
    printedText names₁ = printedText names₂ ↔ names₁ = names₂ :=
  ⟨printedText_inj o₁ o₂, fun h => by rw [h]⟩

theorem cmdTree_shape {checked c : Bool} {dev : Dev} {image : Str} {fuel : Nat} {tree : List (Str × DirEnt)} {lines : List Str}
    (ht : TreeOfImage c dev fuel tree) (h : cmdTree checked c dev image fuel = .ok lines) :
    ∃ n t, lines = tree.map treeLine ++ [treeFooter n t image] := by
  obtain ⟨d, vol, h1, h2⟩ := ht
  simp only [cmdTree, h1, Res.ok_bind, h2] at h
  obtain ⟨⟨n, t⟩, _, h4⟩ := Res.bind_eq_ok.1 h
  cases h4
  exact ⟨n, t, rfl⟩

theorem lines_told : ∀ {a b : List (Str × DirEnt)}, PlainNames a → PlainNames b → a.map treeLine = b.map treeLine →
    a.map told = b.map told
  | [], [], _, _, _ => rfl
  | [], y :: b, _, _, h => by simp at h
  | x :: a, [], _, _, h => by simp at h
  | x :: a, y :: b, ha, hb, h => by
    simp only [List.map_cons, List.cons.injEq] at h ⊢
    obtain ⟨h1, h2⟩ := h
    refine ⟨?_, lines_told (fun z hz => ha z (by simp [hz])) (fun z hz => hb z (by simp [hz])) h2⟩
    rw [treeLine_eq, treeLine_eq] at h1
    obtain ⟨g1, g2, g3⟩ := lineOf_inj (ha x (by simp)).2.2 (hb y (by simp)).2.2 h1
    exact Prod.ext g1 (Prod.ext g2 g3)

theorem tree_lines_oneLine {tree : List (Str × DirEnt)} {n t : Nat} {image : Str} (hp : PlainNames tree) (hi : OneLine image) :
    ∀ s ∈ tree.map treeLine ++ [treeFooter n t image], OneLine s := by
  intro s hs
  rcases List.mem_append.1 hs with hs | hs
  · obtain ⟨x, hx, rfl⟩ := List.mem_map.1 hs
    rw [treeLine_eq]
    exact lineOf_oneLine (hp x hx).1 (hp x hx).2.1 _
  · rw [List.mem_singleton.1 hs]
    exact footer_oneLine n t hi

/-- C150 for `tree` (part): if `tree` prints the same text for any two images, and the names in them are plain, then it found
the same: the same directories, and the same files with the same sizes, in the same order. -/
theorem C150_tree_partial {k₁ k₂ c₁ c₂ : Bool} {dev₁ dev₂ : Dev} {image₁ image₂ : Str} {fuel₁ fuel₂ : Nat}
    {tree₁ tree₂ : List (Str × DirEnt)} {lines₁ lines₂ : List Str}
    (t₁ : TreeOfImage c₁ dev₁ fuel₁ tree₁) (t₂ : TreeOfImage c₂ dev₂ fuel₂ tree₂)
    (h₁ : cmdTree k₁ c₁ dev₁ image₁ fuel₁ = .ok lines₁) (h₂ : cmdTree k₂ c₂ dev₂ image₂ fuel₂ = .ok lines₂)
    (p₁ : PlainNames tree₁) (p₂ : PlainNames tree₂) (o₁ : OneLine image₁) (o₂ : OneLine image₂)
    (h : printedText lines₁ = printedText lines₂) : tree₁.map told = tree₂.map told := by
  obtain ⟨n, t, rfl⟩ := cmdTree_shape t₁ h₁
  obtain ⟨n', t', rfl⟩ := cmdTree_shape t₂ h₂
  have := printedText_inj (tree_lines_oneLine p₁ o₁) (tree_lines_oneLine p₂ o₂) h
  exact lines_told p₁ p₂ (List.append_inj_left' this rfl)

theorem told_key (dev : Dev) (x : Str × DirEnt) : told x =
    ((direntKey dev x).1, (direntKey dev x).2.1, (direntKey dev x).2.2.2.map Prod.fst) := by
  unfold told direntKey
  cases x.2.node.dirent.isDirectory <;> rfl

theorem told_entryKey (content : Path → Bytes) (x : Path × FileEntry) :
    ((entryKey content x).1, (entryKey content x).2.1, (entryKey content x).2.2.2.map Prod.fst) =
      (slashPath x.1, x.2.name, if x.2.isDir then none else some x.2.len) := by
  unfold entryKey
  cases x.2.isDir <;> rfl

theorem packed_tree {fs : SourceFs} {content : Path → Bytes} (hb : Bounded fs) (hf : FaithfulTo fs content)
    {faults : Faults} {fuel : Nat} {img0 : Bytes} {s' : PackState ImgFile}
    (h : createImage (fileEnv fs faults) fuel ⟨⟨img0, []⟩, []⟩ = (.ok (), s')) (c : Bool) :
    ∃ n listed, (∀ k, n < k → TreeOfImage c (fileDev s'.dev.img) k listed) ∧
      ∀ v, v ∈ listed.map told ↔ ∃ p e, EntryIn fs.readDir p e ∧ v = (slashPath p, e.name, if e.isDir then none else some e.len) := by
  obtain ⟨M, Loc, l0, hP⟩ := pack_packed hb hf h
  obtain ⟨dev, ho, ha⟩ := openVolume_packed hP c
  obtain ⟨vol, hv, _, _, _, all, hn, hall, listed, hl, hperm⟩ := pack_success hb hf h
  rw [hP.volume] at hv
  cases hv
  refine ⟨all.length + 1, listed, fun k hk => ⟨dev, _, ho, by rw [ha.fileTree]; exact hl k hk⟩, fun v => ?_⟩
  have hm : (listed.map told).Perm (all.map (fun x => (slashPath x.1, x.2.name, if x.2.isDir then none else some x.2.len))) := by
    have := hperm.map (fun k => (k.1, k.2.1, k.2.2.2.map Prod.fst))
    rw [List.map_map, List.map_map] at this
    refine (List.Perm.trans ?_ this).trans ?_
    · exact List.Perm.of_eq (List.map_congr_left (fun x _ => told_key _ x))
    · exact List.Perm.of_eq (List.map_congr_left (fun x _ => told_entryKey content x))
  rw [hm.mem_iff, List.mem_map]
  constructor
  · rintro ⟨x, hx, rfl⟩
    exact ⟨x.1, x.2, (hall x.1 x.2).1 hx, rfl⟩
  · rintro ⟨p, e, he, rfl⟩
    exact ⟨(p, e), (hall p e).2 he, rfl⟩

theorem plainPath_of_dir {S : Path → Res (List FileEntry)} (hs : PlainSource S) {p : Path} (hp : DirOf S p) :
    PlainPath p ∧ OneLine (slashPath p) := by
  induction hp with
  | root => exact ⟨(by intro s hs; cases hs), (by unfold OneLine; decide)⟩
  | @sub q l e hq hl he hd ih =>
    obtain ⟨h1, h2, h3⟩ := hs q e ⟨hq, l, hl, he⟩
    constructor
    · intro s hsm
      rcases List.mem_append.1 hsm with hsm | hsm
      · exact ih.1 s hsm
      · rw [List.mem_singleton.1 hsm]; exact ⟨h2, h3⟩
    · have : slashPath (q ++ [e.name]) = slashPath q ++ '/' :: e.name := by simp [slashPath]
      rw [this]
      have := ih.2
      unfold OneLine at *
      simp [this, h1]

/-- C150 for `tree` of packed images (part): if `tree` prints the same text for the images packed from two sources, and the
names in them are plain, then the sources have the same directories, and the same files with the same sizes. -/
theorem C150_packed_partial {fs₁ fs₂ : SourceFs} {content₁ content₂ : Path → Bytes} (b₁ : Bounded fs₁) (b₂ : Bounded fs₂)
    (f₁ : FaithfulTo fs₁ content₁) (f₂ : FaithfulTo fs₂ content₂) {faults₁ faults₂ : Faults} {fuel₁ fuel₂ : Nat}
    {old₁ old₂ : Bytes} {s₁ s₂ : PackState ImgFile}
    (h₁ : createImage (fileEnv fs₁ faults₁) fuel₁ ⟨⟨old₁, []⟩, []⟩ = (.ok (), s₁))
    (h₂ : createImage (fileEnv fs₂ faults₂) fuel₂ ⟨⟨old₂, []⟩, []⟩ = (.ok (), s₂))
    (p₁ : PlainSource fs₁.readDir) (p₂ : PlainSource fs₂.readDir) (k₁ k₂ c₁ c₂ : Bool) {image₁ image₂ : Str}
    (o₁ : OneLine image₁) (o₂ : OneLine image₂) :
    ∃ n, ∀ wf, n < wf → ∀ lines₁ lines₂,
      cmdTree k₁ c₁ (fileDev s₁.dev.img) image₁ wf = .ok lines₁ → cmdTree k₂ c₂ (fileDev s₂.dev.img) image₂ wf = .ok lines₂ →
      printedText lines₁ = printedText lines₂ →
      ∀ p name size, HasEntry fs₁.readDir p name size ↔ HasEntry fs₂.readDir p name size := by
  obtain ⟨n₁, l₁, g₁, m₁⟩ := packed_tree b₁ f₁ h₁ c₁
  obtain ⟨n₂, l₂, g₂, m₂⟩ := packed_tree b₂ f₂ h₂ c₂
  have plain {fs : SourceFs} (hp : PlainSource fs.readDir) {l : List (Str × DirEnt)}
      (hm : ∀ v, v ∈ l.map told ↔ ∃ p e, EntryIn fs.readDir p e ∧
        v = (slashPath p, e.name, if e.isDir then none else some e.len)) : PlainNames l := by
    intro x hx
    obtain ⟨p, e, he, hv⟩ := (hm _).1 (List.mem_map_of_mem hx)
    simp only [told, Prod.mk.injEq] at hv
    rw [hv.1, hv.2.1]
    obtain ⟨a, b, c⟩ := hp p e he
    exact ⟨(plainPath_of_dir hp he.1).2, a, b, c⟩
  have one {fs fs' : SourceFs} (hp : PlainSource fs.readDir) (hp' : PlainSource fs'.readDir)
      (hm : ∀ p e, EntryIn fs.readDir p e → ∃ p' e', EntryIn fs'.readDir p' e' ∧
        (slashPath p, e.name, if e.isDir then none else some e.len) =
          (slashPath p', e'.name, if e'.isDir then none else some e'.len))
      {p name size} (h : HasEntry fs.readDir p name size) : HasEntry fs'.readDir p name size := by
    obtain ⟨e, he, rfl, rfl⟩ := h
    obtain ⟨p', e', he', hv⟩ := hm p e he
    simp only [Prod.mk.injEq] at hv
    have := slashPath_plain_inj (plainPath_of_dir hp he.1).1 (plainPath_of_dir hp' he'.1).1 hv.1
    subst this
    exact ⟨e', he', hv.2.1.symm, hv.2.2⟩
  refine ⟨n₁ + n₂, fun wf hwf lines₁ lines₂ e₁ e₂ he p name size => ?_⟩
  have := C150_tree_partial (g₁ wf (by omega)) (g₂ wf (by omega)) e₁ e₂ (plain p₁ m₁) (plain p₂ m₂) o₁ o₂ he
  constructor
  · exact one p₁ p₂ (fun p e hp => by
      have := (m₁ _).2 ⟨p, e, hp, rfl⟩
      rw [C150_tree_partial (g₁ wf (by omega)) (g₂ wf (by omega)) e₁ e₂ (plain p₁ m₁) (plain p₂ m₂) o₁ o₂ he, m₂] at this
      exact this)
  · exact one p₂ p₁ (fun p e hp => by
      have := (m₂ _).2 ⟨p, e, hp, rfl⟩
      rw [← C150_tree_partial (g₁ wf (by omega)) (g₂ wf (by omega)) e₁ e₂ (plain p₁ m₁) (plain p₂ m₂) o₁ o₂ he, m₁] at this
      exact this)

theorem cmdInfo_volume {checked c : Bool} {dev : Dev} {fuel : Nat} {r : InfoOut} (h : cmdInfo checked c dev none fuel = .ok r) :
    ∃ v t s z, r = .volume v t s z := by
  obtain ⟨⟨d, vol⟩, _, h2⟩ := Res.bind_eq_ok.1 h
  cases h2
  exact ⟨_, _, _, _, rfl⟩

theorem cmdInfo_root {checked c : Bool} {dev : Dev} {fuel : Nat} {r : InfoOut}
    (h : cmdInfo checked c dev (some ['/']) fuel = .ok r) : ∃ l, r = .entries l := by
  obtain ⟨⟨d, vol⟩, _, h2⟩ := Res.bind_eq_ok.1 h
  simp only [if_true] at h2
  obtain ⟨l, _, h4⟩ := Res.bind_eq_ok.1 h2
  cases h4
  exact ⟨l, rfl⟩

theorem cmdInfo_path {checked c : Bool} {dev : Dev} {fuel : Nat} {r : InfoOut} {s : Str} (hs : s ≠ ['/'])
    (h : cmdInfo checked c dev (some s) fuel = .ok r) :
    ∃ i rest, r = .entries (i :: rest) ∧ (¬ i.attrs &&& 0x10 ≠ 0 → rest = []) := by
  obtain ⟨⟨d, vol⟩, _, h2⟩ := Res.bind_eq_ok.1 h
  simp only [if_neg hs] at h2
  obtain ⟨e, _, h4⟩ := Res.bind_eq_ok.1 h2
  obtain ⟨i, h5, h6⟩ := Res.bind_eq_ok.1 h4
  have hi : i.attrs = e.node.dirent.attrs := by
    simp only [printDirent] at h5
    obtain ⟨_, _, h7⟩ := Res.bind_eq_ok.1 h5
    obtain ⟨_, _, h8⟩ := Res.bind_eq_ok.1 h7
    cases h8
    rfl
  cases ht : e.node.dirent.direntTable with
  | none =>
    rw [ht] at h6
    cases h6
    exact ⟨i, [], rfl, fun _ => rfl⟩
  | some tab =>
    rw [ht] at h6
    obtain ⟨l, _, h8⟩ := Res.bind_eq_ok.1 h6
    cases h8
    refine ⟨i, l, rfl, fun h => absurd ?_ h⟩
    rw [hi]
    unfold DiskData.direntTable DiskData.isDirectory at ht
    split at ht
    · rename_i hd
      exact bne_iff_ne.1 hd
    · cases ht

theorem oneLine_entries {l : List DirentInfo} (h : ∀ i ∈ l, OneLine i.name) : ∀ s ∈ l.flatMap subdirLines, OneLine s := by
  intro s hs
  obtain ⟨i, hi, hs⟩ := List.mem_flatMap.1 hs
  exact subdirLines_oneLine (h i hi) s hs

theorem infoLines_oneLine (path : Option Str) {r : InfoOut} (h : OneLineNames r) : ∀ s ∈ infoLines path r, OneLine s := by
  intro s hs
  cases r with
  | volume v t a b =>
    simp only [infoLines, volumeLines, List.mem_cons, List.not_mem_nil, or_false] at hs
    rcases hs with rfl | rfl | rfl
    · exact infoField_oneLine (by unfold OneLine; decide) (by cases v <;> (unfold OneLine; decide))
    · exact infoField_oneLine (by unfold OneLine; decide) (oneLine_digits _)
    · exact infoField_oneLine (by unfold OneLine; decide) (placeText_oneLine _ _)
  | entries l =>
    simp only [infoLines] at hs
    split at hs
    · exact oneLine_entries h s hs
    · cases l with
      | nil => cases hs
      | cons i rest =>
        rcases List.mem_append.1 hs with hs | hs
        · exact direntLines_oneLine (h i (by simp)) s hs
        · split at hs
          · rcases List.mem_cons.1 hs with rfl | hs
            · unfold OneLine; simp
            · exact oneLine_entries (fun j hj => h j (by simp [hj])) s hs
          · cases hs

/-- C150 for `info` (part): if `info` prints the same text for any two images, and the names have no line break, then it
found the same: the same volume information, or the same entries with the same locations, sizes, links and attributes. -/
theorem C150_info_partial {k₁ k₂ c₁ c₂ : Bool} {dev₁ dev₂ : Dev} {path : Option Str} {fuel₁ fuel₂ : Nat} {r₁ r₂ : InfoOut}
    (h₁ : cmdInfo k₁ c₁ dev₁ path fuel₁ = .ok r₁) (h₂ : cmdInfo k₂ c₂ dev₂ path fuel₂ = .ok r₂)
    (o₁ : OneLineNames r₁) (o₂ : OneLineNames r₂)
    (h : printedText (infoLines path r₁) = printedText (infoLines path r₂)) : SameInfo r₁ r₂ := by
  have h := printedText_inj (infoLines_oneLine path o₁) (infoLines_oneLine path o₂) h
  cases path with
  | none =>
    obtain ⟨v, t, s, z, rfl⟩ := cmdInfo_volume h₁
    obtain ⟨v', t', s', z', rfl⟩ := cmdInfo_volume h₂
    simp only [infoLines, volumeLines, List.cons.injEq, and_true] at h
    obtain ⟨g1, g2, g3⟩ := h
    have hv : v = v' := by
      have := infoField_inj g1
      cases v <;> cases v' <;> first | rfl | exact absurd this (by decide)
    have ht : t = t' := UInt64.toNat_inj.1 (toDigits_inj (infoField_inj g2))
    obtain ⟨hs, hz⟩ := placeText_inj (infoField_inj g3)
    subst hv ht hs hz
    exact .volume ..
  | some s =>
    by_cases hs : s = ['/']
    · subst hs
      obtain ⟨l, rfl⟩ := cmdInfo_root h₁
      obtain ⟨m, rfl⟩ := cmdInfo_root h₂
      simp only [infoLines, if_true] at h
      exact .entries (subdirs_inj h)
    · obtain ⟨i, l, rfl, hl⟩ := cmdInfo_path hs h₁
      obtain ⟨j, m, rfl, hm⟩ := cmdInfo_path hs h₂
      have hs' : ¬ some s = some ['/'] := fun h => hs (Option.some.inj h)
      simp only [infoLines, if_neg hs'] at h
      obtain ⟨g1, g2⟩ := List.append_inj h rfl
      have he := direntLines_inj g1
      have hd := sameFlags_dir he.2.2.2.2.2.2
      by_cases hi : i.attrs &&& 0x10 ≠ 0
      · rw [if_pos hi, if_pos (hd.1 hi)] at g2
        exact .entries (.cons he (subdirs_inj (List.cons.inj g2).2))
      · rw [hl hi, hm (fun h => hi (hd.2 h))]
        exact .entries (.cons he .nil)

/-! ## Where it fails -/

theorem flat_lists {files : List (Str × Bytes)} (hok : FlatOk files) : ∃ s' names,
    createImage (fileEnv (flatFs files) (fun _ => none)) 1 ⟨⟨[], []⟩, []⟩ = (.ok (), s') ∧
    cmdLs false (fileDev s'.dev.img) ['/'] false (files.length + 1 + 2 * Nat.log2 (files.length + 1)) = .ok names ∧
    names.Perm (files.map Prod.fst) := by
  obtain ⟨s', h⟩ := flat_packs hok []
  have hl {p l} (hp : DirOf (flatFs files).readDir p) (hl : (flatFs files).readDir p = .ok l) : l.length = files.length := by
    rw [flat_dirs] at hp
    subst hp
    simp only [flatFs, if_true, Res.ok.injEq] at hl
    subst hl
    simp
  obtain ⟨h1, _⟩ := C76_ls (flat_bounded files) (flat_faithful hok.distinct) h false false
    (wf := files.length + 1 + 2 * Nat.log2 (files.length + 1))
    (by intro p l hp hr; have := hl hp hr; omega) (by intro p l hp hr; rw [hl hp hr]; omega)
  obtain ⟨lst, names, k1, k2, k3⟩ := h1 [] ['/'] .root (.inl ⟨rfl, rfl⟩)
  simp only [flatFs, if_true, Res.ok.injEq] at k1
  subst k1
  refine ⟨s', names, h, k2, ?_⟩
  rw [List.map_map] at k3
  exact k3

/-- The names of two files, in one line each, or as the name of a single file. -/
theorem perm_pair {a b : Str} {l : List Str} (h : l.Perm [a, b]) : l = [a, b] ∨ l = [b, a] := by
  match l, h.length_eq with
  | [x, y], _ =>
    have hx : x ∈ [a, b] := h.mem_iff.1 (by simp)
    simp only [List.mem_cons, List.not_mem_nil, or_false] at hx
    rcases hx with rfl | rfl
    · left
      have := List.perm_singleton.1 ((List.perm_cons _).1 h)
      rw [this]
    · right
      have := List.perm_singleton.1 ((List.perm_cons _).1 (h.trans (List.Perm.swap ..)))
      rw [this]

/-- C150 is false for names with line breaks: there are two sources, one with two files and one with a single file, such that
both can be packed and `ls /` prints the same for the two images. -/
theorem C150_ls_false : ∃ (one two : List (Str × Bytes)) (s₁ s₂ : PackState ImgFile) (fuel : Nat) (n₁ n₂ : List Str),
    one.length = 1 ∧ two.length = 2 ∧
    createImage (fileEnv (flatFs one) (fun _ => none)) 1 ⟨⟨[], []⟩, []⟩ = (.ok (), s₁) ∧
    createImage (fileEnv (flatFs two) (fun _ => none)) 1 ⟨⟨[], []⟩, []⟩ = (.ok (), s₂) ∧
    cmdLs false (fileDev s₁.dev.img) ['/'] false fuel = .ok n₁ ∧ n₁.length = 1 ∧
    (∃ fuel', cmdLs false (fileDev s₂.dev.img) ['/'] false fuel' = .ok n₂) ∧ n₂.length = 2 ∧
    printedText n₁ = printedText n₂ := by
  obtain ⟨s₂, n₂, h1, h2, h3⟩ := flat_lists twoFiles_ok
  have single {x : Str} (hok : FlatOk [(x, [7])]) : ∃ s' names,
      createImage (fileEnv (flatFs [(x, [7])]) (fun _ => none)) 1 ⟨⟨[], []⟩, []⟩ = (.ok (), s') ∧
      cmdLs false (fileDev s'.dev.img) ['/'] false (1 + 1 + 2 * Nat.log2 (1 + 1)) = .ok names ∧ names = [x] := by
    obtain ⟨s', names, g1, g2, g3⟩ := flat_lists hok
    exact ⟨s', names, g1, g2, List.perm_singleton.1 g3⟩
  rcases perm_pair h3 with rfl | rfl
  · obtain ⟨s₁, n₁, g1, g2, rfl⟩ := single (x := ['a', '\n', 'b'])
      (ascii_flatOk (by unfold DistinctNames; decide) (by decide) (by decide) (by decide))
    exact ⟨_, _, s₁, s₂, _, _, _, rfl, rfl, g1, h1, g2, rfl, ⟨_, h2⟩, rfl, by decide⟩
  · obtain ⟨s₁, n₁, g1, g2, rfl⟩ := single (x := ['b', '\n', 'a'])
      (ascii_flatOk (by unfold DistinctNames; decide) (by decide) (by decide) (by decide))
    exact ⟨_, _, s₁, s₂, _, _, _, rfl, rfl, g1, h1, g2, rfl, ⟨_, h2⟩, rfl, by decide⟩

/-! ## The hypotheses can be met -/

/-- Two files packed: `ls` lists them, one line each. -/
example : ∃ s' names, createImage (fileEnv (flatFs twoFiles) (fun _ => none)) 1 ⟨⟨[], []⟩, []⟩ = (.ok (), s') ∧
    cmdLs false (fileDev s'.dev.img) ['/'] false (2 + 1 + 2 * Nat.log2 (2 + 1)) = .ok names ∧ (∀ s ∈ names, OneLine s) ∧
    names.length = 2 := by
  obtain ⟨s', names, h1, h2, h3⟩ := flat_lists twoFiles_ok
  refine ⟨s', names, h1, h2, ?_, h3.length_eq⟩
  intro s hs
  have := h3.mem_iff.1 hs
  simp only [twoFiles, List.map_cons, List.map_nil, List.mem_cons, List.not_mem_nil, or_false] at this
  rcases this with rfl | rfl <;> (unfold OneLine; decide)

theorem sample_plain : PlainSource sampleFs'.readDir := by
  intro p e he
  rcases (sample_entries p e).1 he with ⟨_, h⟩ | ⟨_, h⟩ | ⟨_, h⟩ <;> rw [h] <;> (unfold OneLine; decide)

/-- The sample packs and its names are plain; `info /a` describes directory `A` and the file in it, whose names have no line
break; a description as text. -/
example : ∃ s', createImage (fileEnv sampleFs' (fun _ => none)) 2 ⟨⟨[], []⟩, []⟩ = (.ok (), s') ∧
    PlainSource sampleFs'.readDir ∧
    ∃ i rest, cmdInfo true false (fileDev s'.dev.img) (some ['/', 'a']) 3 = .ok (.entries (i :: rest)) ∧
      OneLineNames (.entries (i :: rest)) ∧ rest.length = 1 := by
  obtain ⟨s', h⟩ := sample_packs []
  refine ⟨s', h, sample_plain, ?_⟩
  obtain ⟨_, h2⟩ := C59_info_partial sample'_bounded sample'_faithful h (by
    intro p l hp hl
    rcases (sample_dirs p).1 hp with rfl | rfl <;> cases hl <;> (unfold SmallListing; decide)) true false
    sample_scanFuel sample_budget
  obtain ⟨i, d, rest, k1, k2, _, _, _, k3⟩ := h2 [] ⟨['A'], true, 0⟩ [['a']] ((sample_entries _ _).2 (by simp))
    (by unfold SamePath; decide) (by intro s hs; simp at hs; subst hs; decide)
  obtain ⟨lst, m1, m2, _⟩ := k3 rfl
  cases m1
  have m3 : rest.map DirentInfo.name = [['c']] := List.perm_singleton.1 m2
  refine ⟨i, rest, k1, ?_, by simpa using congrArg List.length m3⟩
  intro j hj
  rcases List.mem_cons.1 hj with rfl | hj
  · rw [k2]; unfold OneLine; decide
  · have := List.mem_map_of_mem (f := DirentInfo.name) hj
    rw [m3] at this
    rw [List.mem_singleton.1 this]; unfold OneLine; decide

example : (direntLines ⟨['A'], 2048, none, some 20, 34, 2048, 0x11⟩).map String.ofList =
    ["Name:                A", "Offset:              2048", "Left Child Offset:   None", "Right Child Offset:  20 bytes",
     "Data Location:       Sector 34 (2048 bytes)", "Attributes:          Directory Read-Only"] := by decide +kernel

example : (infoLines (some "/a".toList) (.entries [⟨['a'], 0, none, none, 34, 5, 0x10⟩, ⟨['c'], 4, none, none, 35, 6, 0xa6⟩])).map
    String.ofList =
    ["Name:                a", "Offset:              0", "Left Child Offset:   None", "Right Child Offset:  None",
     "Data Location:       Sector 34 (5 bytes)", "Attributes:          Directory", "",
     "c", "Name:                c", "Offset:              4", "Left Child Offset:   None", "Right Child Offset:  None",
     "Data Location:       Sector 35 (6 bytes)", "Attributes:          Hidden System Archive Normal", ""] := by decide +kernel

example : (infoLines none (.volume true 7 33 2048)).map String.ofList =
    ["Valid:               true", "Creation time:       7", "Root Entry:          Sector 33 (2048 bytes)"] := by decide +kernel

end Xdvdfs.Props
