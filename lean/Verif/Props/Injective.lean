import Verif.Props.SameImage

/-!
# C142: different trees give different images
-/

namespace Xdvdfs.Props
open Xdvdfs Spec

theorem scanFuel_exists {rd : ReadDir} (hL : Listable rd) {Dp : List Path} (hD : ∀ q, q ∈ Dp ↔ DirOf rd q) :
    ∃ wf, ScanFuel rd wf := by
  have key : ∀ Dp : List Path, (∀ q ∈ Dp, DirOf rd q) → ∃ wf, ∀ p l, p ∈ Dp → rd p = .ok l → l.length < wf := by
    intro Dp
    induction Dp with
    | nil => intro _; exact ⟨0, fun _ _ h => by cases h⟩
    | cons q Dp ih =>
      intro h
      obtain ⟨wf, hwf⟩ := ih (fun x hx => h x (List.mem_cons_of_mem _ hx))
      obtain ⟨l, hl⟩ := hL q (h q List.mem_cons_self)
      refine ⟨max wf (l.length + 1), ?_⟩
      intro p l' hp hl'
      rcases List.mem_cons.1 hp with rfl | hp
      · rw [hl] at hl'; cases hl'; omega
      · have := hwf p l' hp hl'; omega
  obtain ⟨wf, hwf⟩ := key Dp (fun q hq => (hD q).1 hq)
  exact ⟨wf, fun p l hp hl => hwf p l ((hD p).2 hp) hl⟩

theorem ScanFuel.mono {rd : ReadDir} {a b : Nat} (h : ScanFuel rd a) (hab : a ≤ b) : ScanFuel rd b :=
  fun p l hp hl => Nat.lt_of_lt_of_le (h p l hp hl) hab

/-- Every entry of the first tree is an entry of the second, at the same place, with the same name and kind, and, if it is
a file, the same length and content. -/
def TreeWithin (rd rd' : Path → Res (List FileEntry)) (content content' : Path → Bytes) : Prop :=
  ∀ p e, EntryIn rd p e → ∃ e', EntryIn rd' p e' ∧ e'.name = e.name ∧ e'.isDir = e.isDir ∧
    (e.isDir = false → e'.len = e.len ∧ content' (p ++ [e.name]) = content (p ++ [e.name]))

theorem packed_within {fs fs' : SourceFs} {content content' : Path → Bytes} {img : Bytes} {M M' : PathMap TabWriter}
    {Loc Loc' : Path → Listing → Prop} {l0 l0' : Listing} (h : Packed fs content img M Loc l0)
    (h' : Packed fs' content' img M' Loc' l0') : TreeWithin fs.readDir fs'.readDir content content' := by
  obtain ⟨D, _, hD⟩ := h.finite
  obtain ⟨D', _, hD'⟩ := h'.finite
  obtain ⟨a, ha⟩ := scanFuel_exists h.listable hD
  obtain ⟨b, hb⟩ := scanFuel_exists h'.listable hD'
  have hwf : ScanFuel fs.readDir (max a b) := ScanFuel.mono ha (by omega)
  have hwf' : ScanFuel fs'.readDir (max a b) := ScanFuel.mono hb (by omega)
  have hroot : regionOf l0 = regionOf l0' := by
    have := h.volume.symm.trans h'.volume
    simp only [Res.ok.injEq] at this
    exact congrArg VolDesc.root this
  obtain ⟨t, k⟩ := h.image.sameTree h.distinct h.root h.rootDir hwf h.listable
  obtain ⟨t', _⟩ := h'.image.sameTree h'.distinct h'.root h'.rootDir hwf' h'.listable
  have c := h.content_eq hwf
  have c' := h'.content_eq hwf'
  rw [← hroot] at t' c'
  intro p e he
  obtain ⟨e1, g1, g2, g3, g4⟩ := t.entry he
  obtain ⟨e', f1, f2, f3, f4⟩ := (t'.symm h'.listable).entry g1
  refine ⟨e', f1, by rw [f2, g2], by rw [f3, g3], fun hd => ⟨?_, ?_⟩⟩
  · rw [f4 (by rw [g3, hd]), g4 hd]
  · obtain ⟨hp, l1, q1, q2⟩ := g1
    obtain ⟨lst, ds, r1, r2, r3, r4⟩ := k p ((t.dirs p).2 hp)
    have hl1 : l1 = ds.map fileEntryOf := by
      have : imgReadDir (fileDev img) (max a b) (regionOf l0) p = .ok (ds.map fileEntryOf) := by
        simp [imgReadDir, r2]
      rw [this] at q1
      exact (Res.ok.inj q1).symm
    rw [hl1] at q2
    obtain ⟨d, hd1, hd2⟩ := List.mem_map.1 q2
    have hdir : d.node.dirent.isDirectory = false := by
      have : (fileEntryOf d).isDir = false := by rw [hd2, g3, hd]
      exact this
    have hname : d.nameStr = e.name := by
      rw [← g2, ← hd2]; rfl
    have x1 := c p ds d hp r2 hd1 hdir
    have x2 := c' p ds d hp r2 hd1 hdir
    rw [x1, hname] at x2
    exact (Res.ok.inj x2).symm

/-- C142.  If two packs give the same image, byte for byte, then the two sources have the same tree: the same directories,
with the same entries, and files of the same lengths and contents.  So different trees never give the same image. -/
theorem C142_image_determines_tree {fs fs' : SourceFs} {content content' : Path → Bytes} {faults faults' : Faults}
    {fuel fuel' : Nat} {img0 img0' : Bytes} {s s' : PackState ImgFile} (hb : Bounded fs) (hf : FaithfulTo fs content)
    (hb' : Bounded fs') (hf' : FaithfulTo fs' content')
    (h : createImage (fileEnv fs faults) fuel ⟨⟨img0, []⟩, []⟩ = (.ok (), s))
    (h' : createImage (fileEnv fs' faults') fuel' ⟨⟨img0', []⟩, []⟩ = (.ok (), s')) (he : s.dev.img = s'.dev.img) :
    TreeWithin fs.readDir fs'.readDir content content' ∧ TreeWithin fs'.readDir fs.readDir content' content := by
  obtain ⟨M, Loc, l0, P⟩ := pack_packed hb hf h
  obtain ⟨M', Loc', l0', P'⟩ := pack_packed hb' hf' h'
  rw [← he] at P'
  exact ⟨packed_within P P', packed_within P' P⟩

/-- C142, exactly: two packs into new files give the same image if and only if the images list the same entries in the same
order in every directory and the files have the same contents. -/
theorem C142_same_image_iff {fs fs' : SourceFs} {content content' : Path → Bytes} {faults faults' : Faults}
    {fuel fuel' : Nat} {s s' : PackState ImgFile} (hb : Bounded fs) (hf : FaithfulTo fs content) (hb' : Bounded fs')
    (hf' : FaithfulTo fs' content')
    (h : createImage (fileEnv fs faults) fuel ⟨⟨[], []⟩, []⟩ = (.ok (), s))
    (h' : createImage (fileEnv fs' faults') fuel' ⟨⟨[], []⟩, []⟩ = (.ok (), s')) {vol vol' : VolDesc}
    (hv : readVolume (fileDev s.dev.img) = .ok vol) (hv' : readVolume (fileDev s'.dev.img) = .ok vol') {wf : Nat}
    (hwf : ScanFuel fs.readDir wf) (hwf' : ScanFuel fs'.readDir wf) :
    s.dev.img = s'.dev.img ↔
      ListedAlike (imgReadDir (fileDev s.dev.img) wf vol.root) (imgReadDir (fileDev s'.dev.img) wf vol'.root) ∧
      ∀ p e, EntryIn fs.readDir p e → e.isDir = false → content (p ++ [e.name]) = content' (p ++ [e.name]) := by
  obtain ⟨M, Loc, l0, P⟩ := pack_packed hb hf h
  have hroot : vol.root = regionOf l0 := by
    rw [P.volume] at hv; rw [← Res.ok.inj hv]; rfl
  obtain ⟨t, _⟩ := P.image.sameTree P.distinct P.root P.rootDir hwf P.listable
  rw [← hroot] at t
  constructor
  · intro he
    refine ⟨?_, ?_⟩
    · rw [← he] at hv' ⊢
      rw [hv] at hv'
      cases hv'
      intro p hp
      obtain ⟨l, hl⟩ := P.listable p ((t.dirs p).2 hp)
      obtain ⟨l1, g1, _⟩ := t.lists p l ((t.dirs p).2 hp) hl
      exact ⟨l1, l1, g1, g1, rfl⟩
    · intro p e hi hd
      obtain ⟨e', _, _, _, g⟩ := (C142_image_determines_tree hb hf hb' hf' h h' he).1 p e hi
      exact (g hd).2.symm
  · rintro ⟨hl, hc⟩
    refine C134_determined hb hf hb' hf' h h' hv hv' hwf hwf' hl ?_
    intro p e hi hd
    obtain ⟨e', k1, k2, k3, _⟩ := (t.symm P.listable).entry hi
    rw [← k2]
    exact hc p e' k1 (by rw [k3, hd])

def lastOne : List (Str × Bytes) := [(['a'], [1, 2, 3]), (['b'], [5])]
def lastTwo : List (Str × Bytes) := [(['a'], [1, 2, 3]), (['b'], [6])]

/-- Two trees that differ in the last byte of the last file: their images differ. -/
example : ∃ s s', createImage (fileEnv (flatFs lastOne) (fun _ => none)) 1 ⟨⟨[], []⟩, []⟩ = (.ok (), s) ∧
    createImage (fileEnv (flatFs lastTwo) (fun _ => none)) 1 ⟨⟨[], []⟩, []⟩ = (.ok (), s') ∧ s.dev.img ≠ s'.dev.img := by
  have o1 : FlatOk lastOne := ascii_flatOk (by unfold DistinctNames; decide) (by decide) (by decide) (by decide)
  have o2 : FlatOk lastTwo := ascii_flatOk (by unfold DistinctNames; decide) (by decide) (by decide) (by decide)
  obtain ⟨s, h⟩ := flat_packs o1 []
  obtain ⟨s', h'⟩ := flat_packs o2 []
  refine ⟨s, s', h, h', fun he => ?_⟩
  obtain ⟨h1, _⟩ := C142_image_determines_tree (flat_bounded _) (flat_faithful o1.distinct) (flat_bounded _)
    (flat_faithful o2.distinct) h h' he
  obtain ⟨e', _, _, _, g⟩ := h1 [] ⟨['b'], false, 1⟩ ((flat_entries _ _).2 ⟨rfl, (['b'], [5]), by decide, rfl⟩)
  exact absurd (g rfl).2 (by decide)

/-- The sample tree, which has a subdirectory, meets the hypotheses of `C142_same_image_iff`. -/
example : ∃ s vol, createImage (fileEnv sampleFs' (fun _ => none)) 2 ⟨⟨[], []⟩, []⟩ = (.ok (), s) ∧
    readVolume (fileDev s.dev.img) = .ok vol ∧
    ListedAlike (imgReadDir (fileDev s.dev.img) 3 vol.root) (imgReadDir (fileDev s.dev.img) 3 vol.root) := by
  obtain ⟨s, h⟩ := sample_packs []
  obtain ⟨vol, hv, _⟩ := pack_success sample'_bounded sample'_faithful h
  exact ⟨s, vol, h, hv, ((C142_same_image_iff sample'_bounded sample'_faithful sample'_bounded sample'_faithful h h hv hv
    sample_scanFuel sample_scanFuel).1 rfl).1⟩

end Xdvdfs.Props
