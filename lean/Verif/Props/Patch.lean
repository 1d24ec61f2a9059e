import Verif.Proof.Patch

/-! # C139: changing a file changes its own bytes in the image only

What becomes of an image when the contents of files change and their sizes do not, and whether a file can be
replaced in an image without packing it again. -/

namespace Xdvdfs.Props

open Spec

/-- C139: when two sources list the same entries with the same sizes, everything is at the same place in the two
images, the images have the same length, and a byte differs between them only within a file, and only if the
contents of that file differ in that byte. -/
theorem C139_changes_stay_local {fs fs' : SourceFs} {content content' : Path → Bytes} {faults faults' : Faults}
    {fuel fuel' : Nat} {s s' : PackState ImgFile} (hb : Bounded fs) (hb' : Bounded fs') (hf : FaithfulTo fs content)
    (hf' : FaithfulTo fs' content') (hrd : fs'.readDir = fs.readDir)
    (h : createImage (fileEnv fs faults) fuel ⟨⟨[], []⟩, []⟩ = (.ok (), s))
    (h' : createImage (fileEnv fs' faults') fuel' ⟨⟨[], []⟩, []⟩ = (.ok (), s')) :
    ∃ places, LaidOut fs.readDir s.dev.img places ∧ LaidOut fs.readDir s'.dev.img places ∧
      (∀ x ∈ places, x.isDir = false → (content x.path).length = x.size ∧ (content' x.path).length = x.size) ∧
      s.dev.img.length = s'.dev.img.length ∧
      ∀ i, s.dev.img[i]? ≠ s'.dev.img[i]? → ∃ x ∈ places, x.isDir = false ∧ x.first ≤ i ∧ i < x.stop ∧
        (content x.path)[i - x.first]? ≠ (content' x.path)[i - x.first]? := by
  obtain ⟨M, Loc, l0, D, rootW, rootSize, next, recs, n, P⟩ := pack_packedBy hb hf h
  obtain ⟨M', Loc', l0', D', rootW', rootSize', next', recs', n', P'⟩ := pack_packedBy hb' hf' h'
  have hs' := P'.shape
  rw [hrd] at hs'
  obtain ⟨e1, rfl⟩ := plan_unique P.shape hs'
  have L := P.laidOut
  have L' := P'.laidOut
  have F := @PackedBy.files_at _ _ _ _ _ _ _ _ _ _ _ _ P
  have F' := @PackedBy.files_at _ _ _ _ _ _ _ _ _ _ _ _ P'
  rw [← placedAll_same e1] at L' F'
  rw [hrd] at L'
  have len : ∀ x ∈ recs, ∀ l ∈ x.r.fileListing, l.isDir = false →
      (content (x.path ++ [l.name])).length = l.size ∧ (content' (x.path ++ [l.name])).length = l.size ∧
      Props.placeOf (x.path ++ [l.name], l) ∈ (placedAll rootSize recs).map Props.placeOf := by
    intro x hx l hl hd
    have hm : Props.placeOf (x.path ++ [l.name], l) ∈ (placedAll rootSize recs).map Props.placeOf := by
      refine List.mem_map_of_mem ?_
      simp only [placedAll, List.mem_cons]
      right
      exact List.mem_flatMap.2 ⟨x, hx, List.mem_map.2 ⟨l, hl, rfl⟩⟩
    exact ⟨(F hm hd).1, (F' hm hd).1, hm⟩
  have himg := P.image
  have himg' := P'.image
  rw [← e1] at himg'
  refine ⟨(placedAll rootSize recs).map Props.placeOf, L, L', fun x hx hd => ⟨(F hx hd).1, (F' hx hd).1⟩, ?_, ?_⟩
  · -- beyond every file both images have the same bytes, whatever the contents
    have big : ∃ i, ∀ x ∈ recs, ∀ l ∈ x.r.fileListing, 2048 * l.sector + l.size ≤ i := by
      have : ∀ (ls : List Listing), ∃ i, ∀ l ∈ ls, 2048 * l.sector + l.size ≤ i := by
        intro ls
        induction ls with
        | nil => exact ⟨0, by simp⟩
        | cons l ls ih =>
          obtain ⟨i, hi⟩ := ih
          refine ⟨i + (2048 * l.sector + l.size), ?_⟩
          intro m hm
          rcases List.mem_cons.1 hm with rfl | hm
          · omega
          · have := hi m hm; omega
      obtain ⟨i, hi⟩ := this (recs.flatMap (fun x => x.r.fileListing))
      exact ⟨i, fun x hx l hl => hi l (List.mem_flatMap.2 ⟨x, hx, hl⟩)⟩
    obtain ⟨i, hi⟩ := big
    rw [himg, himg']
    refine (alike_image (i := i) ?_).1
    intro x hx l hl hd
    obtain ⟨k1, k2, _⟩ := len x hx l hl hd
    have := hi x hx l hl
    refine ⟨by rw [k1, k2], fun _ => ?_⟩
    rw [List.getElem?_eq_none (by omega), List.getElem?_eq_none (by omega)]
  · intro i hi
    apply Classical.byContradiction
    intro hno
    apply hi
    rw [himg, himg']
    refine (alike_image (i := i) ?_).2
    intro x hx l hl hd
    obtain ⟨k1, k2, k3⟩ := len x hx l hl hd
    refine ⟨by rw [k1, k2], fun hle => ?_⟩
    apply Classical.byContradiction
    intro hne
    apply hno
    refine ⟨_, k3, hd, hle, ?_, hne⟩
    apply Classical.byContradiction
    intro hge
    apply hne
    simp only [Place.stop, Props.placeOf, hd, Bool.false_eq_true, if_false] at hge
    rw [List.getElem?_eq_none (by omega), List.getElem?_eq_none (by omega)]

/-- C139: when the content of one file changes and its size does not, replacing the bytes of the file in the image,
where looking it up finds them, gives the image that packing the changed source gives. -/
theorem C139_patch_in_place {fs fs' : SourceFs} {content content' : Path → Bytes} {faults faults' : Faults}
    {fuel fuel' : Nat} {s s' : PackState ImgFile} (hb : Bounded fs) (hb' : Bounded fs') (hf : FaithfulTo fs content)
    (hf' : FaithfulTo fs' content') (hrd : fs'.readDir = fs.readDir)
    (h : createImage (fileEnv fs faults) fuel ⟨⟨[], []⟩, []⟩ = (.ok (), s))
    (h' : createImage (fileEnv fs' faults') fuel' ⟨⟨[], []⟩, []⟩ = (.ok (), s'))
    {p : Path} {e : FileEntry} (he : EntryIn fs.readDir p e) (hfile : e.isDir = false)
    (hc : ∀ q, q ≠ p ++ [e.name] → content' q = content q) (hpl : PlainPath (p ++ [e.name])) {wf : Nat}
    (hwf : SearchBudget fs.readDir wf) :
    ∃ vol d, readVolume (fileDev s.dev.img) = .ok vol ∧
      walkPath (fileDev s.dev.img) vol.root (slashPath (p ++ [e.name])) wf = .ok d ∧
      s'.dev.img = s.dev.img.take (2048 * d.node.dirent.data.sector.toNat) ++ content' (p ++ [e.name]) ++
        s.dev.img.drop (2048 * d.node.dirent.data.sector.toNat + (content' (p ++ [e.name])).length) := by
  obtain ⟨places, L, L', hlen, hl, hdiff⟩ := C139_changes_stay_local hb hb' hf hf' hrd h h'
  obtain ⟨hn, hmem, vol, hvol, _, hfind⟩ := L
  obtain ⟨x, hx, hxp⟩ := List.mem_map.1 ((hmem (p ++ [e.name])).2 (.inr ⟨p, e, he, rfl⟩))
  obtain ⟨d, hd, _, hxd, hsec, _⟩ := hfind x hx p e wf he hxp (by rw [hxp]; exact hpl) hwf
  rw [hfile] at hxd
  rw [hxp] at hd
  refine ⟨vol, d, hvol, hd, ?_⟩
  rw [hsec]
  have hsz := hlen x hx hxd
  rw [hxp] at hsz
  -- the new content is at its place in the new image
  obtain ⟨M', Loc', l0', D', rootW', rootSize', next', recs', n', P'⟩ := pack_packedBy hb' hf' h'
  have hI' := P'.packed.image
  have LL := P'.laidOut
  have F' := @PackedBy.files_at _ _ _ _ _ _ _ _ _ _ _ _ P'
  generalize (placedAll rootSize' recs').map Props.placeOf = places' at LL F'
  have hx' : ∃ y ∈ places', y.path = p ++ [e.name] ∧ y.isDir = false ∧ y.sector = x.sector := by
    obtain ⟨_, hmem', vol1, hvol1, _, hfind1⟩ := LL
    obtain ⟨_, _, vol2, hvol2, _, hfind2⟩ := L'
    rw [hvol1] at hvol2
    cases hvol2
    rw [hrd] at hmem' hfind1
    obtain ⟨y, hy, hyp⟩ := List.mem_map.1 ((hmem' (p ++ [e.name])).2 (.inr ⟨p, e, he, rfl⟩))
    obtain ⟨d1, k1, _, k2, k3, _⟩ := hfind1 y hy p e wf he hyp (by rw [hyp]; exact hpl) hwf
    obtain ⟨d2, j1, _, j2, j3, _⟩ := hfind2 x hx p e wf he hxp (by rw [hxp]; exact hpl) hwf
    rw [hyp] at k1
    rw [hxp, k1] at j1
    cases j1
    exact ⟨y, hy, hyp, by rw [k2, hfile], by rw [← k3, j3]⟩
  obtain ⟨y, hy, hyp, hyd, hys⟩ := hx'
  have hold := (F' hy hyd).2
  rw [hyp, Place.first, hys] at hold
  generalize hnew : content' (p ++ [e.name]) = new at *
  by_cases hempty : new = []
  · subst hempty
    rw [List.append_nil, List.length_nil, Nat.add_zero, List.take_append_drop]
    apply List.ext_getElem?
    intro i
    apply Classical.byContradiction
    intro hne
    obtain ⟨z, hz, hzd, h1, h2, h3⟩ := hdiff i (fun h => hne h.symm)
    by_cases hzp : z.path = p ++ [e.name]
    · have hzl := hlen z hz hzd
      rw [hzp, hnew] at hzl
      simp only [Place.stop, Place.first, hzd, Bool.false_eq_true, if_false, ← hzl.2, List.length_nil] at h1 h2
      omega
    · exact h3 (by rw [hc _ hzp])
  · have hfit := holdsAt_fits hold hempty
    rw [← hl] at hfit
    apply List.ext_getElem?
    intro i
    by_cases hi1 : i < 2048 * x.sector
    · rw [List.append_assoc, List.getElem?_append_left (by rw [List.length_take]; omega), List.getElem?_take_of_lt hi1]
      apply Classical.byContradiction
      intro hne
      obtain ⟨z, hz, hzd, h1, h2, h3⟩ := hdiff i (fun h => hne h.symm)
      by_cases hzp : z.path = p ++ [e.name]
      · have : z = x := by
          have := eq_of_perm_map (f := Place.path) (List.Perm.refl places) rfl hn
          obtain ⟨a, ha, hza⟩ := List.mem_iff_getElem.1 hz
          obtain ⟨b, hb, hxb⟩ := List.mem_iff_getElem.1 hx
          have := (List.getElem_inj (i := a) (j := b) (h₀ := by simpa using ha) (h₁ := by simpa using hb) hn).1
            (by simp [hza, hxb, hzp, hxp])
          subst this
          rw [← hza, ← hxb]
        subst this
        rw [Place.first] at h1
        omega
      · exact h3 (by rw [hc _ hzp])
    · by_cases hi2 : i < 2048 * x.sector + new.length
      · have hb' := holdsAt_byte hold (i := i - 2048 * x.sector) (by omega)
        rw [List.append_assoc, List.getElem?_append_right (by rw [List.length_take]; omega), List.length_take,
          Nat.min_eq_left (by omega), List.getElem?_append_left (by omega), ← hb']
        congr 1
        omega
      · rw [List.getElem?_append_right (by simp only [List.length_append, List.length_take]; omega),
          List.getElem?_drop, List.length_append, List.length_take, Nat.min_eq_left (by omega),
          show 2048 * x.sector + new.length + (i - (2048 * x.sector + new.length)) = i by omega]
        apply Classical.byContradiction
        intro hne
        obtain ⟨z, hz, hzd, h1, h2, h3⟩ := hdiff i (fun h => hne h.symm)
        by_cases hzp : z.path = p ++ [e.name]
        · have : z = x := by
            obtain ⟨a, ha, hza⟩ := List.mem_iff_getElem.1 hz
            obtain ⟨b, hb, hxb⟩ := List.mem_iff_getElem.1 hx
            have := (List.getElem_inj (i := a) (j := b) (h₀ := by simpa using ha) (h₁ := by simpa using hb) hn).1
              (by simp [hza, hxb, hzp, hxp])
            subst this
            rw [← hza, ← hxb]
          subst this
          simp only [Place.stop, hzd, Bool.false_eq_true, if_false] at h2
          omega
        · exact h3 (by rw [hc _ hzp])

/-- Two files, and the same files after a byte of the first has changed. -/
def patchOld : List (Str × Bytes) := [(['a'], [1, 2, 3]), (['b'], [7])]

def patchNew : List (Str × Bytes) := [(['a'], [1, 9, 3]), (['b'], [7])]

/-- `C139_patch_in_place` applies: the sources list the same entries, both can be packed, and only the first file
differs; so does `C139_changes_stay_local`. -/
example : ∃ s s', createImage (fileEnv (flatFs patchOld) (fun _ => none)) 1 ⟨⟨[], []⟩, []⟩ = (.ok (), s) ∧
    createImage (fileEnv (flatFs patchNew) (fun _ => none)) 1 ⟨⟨[], []⟩, []⟩ = (.ok (), s') ∧
    ∃ off, s'.dev.img = s.dev.img.take off ++ [1, 9, 3] ++ s.dev.img.drop (off + 3) := by
  have ok : FlatOk patchOld := ascii_flatOk (by unfold DistinctNames; decide) (by decide) (by decide) (by decide)
  have ok' : FlatOk patchNew := ascii_flatOk (by unfold DistinctNames; decide) (by decide) (by decide) (by decide)
  obtain ⟨s, h⟩ := flat_packs ok []
  obtain ⟨s', h'⟩ := flat_packs ok' []
  obtain ⟨vol, d, _, _, k⟩ := C139_patch_in_place (p := []) (e := ⟨['a'], false, 3⟩) (wf := 3) (flat_bounded _)
    (flat_bounded _) (flat_faithful ok.distinct) (flat_faithful ok'.distinct) rfl h h'
    ((flat_entries _ _).2 (by decide)) rfl
    (by
      intro q hq
      simp only [List.nil_append] at hq
      have : (q == [['a']]) = false := by simpa using hq
      simp only [flatContent, patchOld, patchNew, List.find?_cons, this])
    (by unfold PlainPath; decide)
    (by
      intro p l hp hl
      rw [flat_dirs] at hp
      subst hp
      cases hl
      decide)
  exact ⟨s, s', h, h', _, k⟩

end Xdvdfs.Props
