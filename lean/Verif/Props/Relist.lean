import Verif.Proof.Relist
import Verif.Props.Lookup
import Verif.Props.Repack

/-!
# C137: what an image lists and what its repacked copy lists
-/

namespace Xdvdfs.Props
open Xdvdfs Spec

/-- **C137** (partial: in every directory, the links lead to exactly the stored entries).  If the whole image can be listed and
its files can be read, and repacking it succeeds, then the new image lists the same paths with the same kinds, sizes and
contents.  Missing: other images, see `C137_entry_lost_false` and `C137_entry_appears_false`. -/
theorem C137_repack_keeps_listing_partial {dev : Dev} {fs : ImgFs} (hn : ImgFs.new dev = .ok (some fs)) {copier : Copier}
    (hcop : CopiesFrom dev copier) {wf : Nat} {listed : List (Str × DirEnt)}
    (hl : fileTree dev fs.vol.root wf = .ok listed) (hE : EveryDir fs.vol.root listed (ReadsAlike dev wf))
    (hr : ∀ x ∈ listed, x.2.node.dirent.isDirectory = false → ∃ b, readDataAll dev x.2.node.dirent = .ok b)
    {faults : Faults} {fuel : Nat} {img0 : Bytes} {s' : PackState ImgFile}
    (h : repackImage copier faults wf fuel fs ⟨⟨img0, []⟩, []⟩ = (.ok (), s')) :
    ∃ vol listed' n, readVolume (fileDev s'.dev.img) = .ok vol ∧
      (∀ m, n ≤ m → fileTree (fileDev s'.dev.img) vol.root m = .ok listed') ∧
      ∀ k, k ∈ listed'.map (direntKey (fileDev s'.dev.img)) ↔ k ∈ listed.map (direntKey dev) := by
  obtain ⟨rfl, h2, _⟩ := new_spec hn
  have hD := repack_distinct h2 h
  have hC := imgBytes_content hl hE hD hr
  obtain ⟨vol, v1, _, _, _, all, a1, a2, listed', f1, f2⟩ := repack_success h2 hcop hC h
  refine ⟨vol, listed', all.length + 2, v1, fun m hm => f1 m (by omega), fun k => ?_⟩
  rw [f2.mem_iff]
  obtain ⟨g1, g2⟩ := listed_iff hl hE hD
  have key : ∀ p S d c, DirOf (imgReadDir fs.dev wf fs.vol.root) p → imgDirents fs.dev wf fs.vol.root p = .ok S → d ∈ S →
      saysOf c = saysOf d →
      direntKey fs.dev (slashPath p, c) = entryKey (imgBytes fs.dev wf fs.vol.root) (p, fileEntryOf d) := by
    intro p S d c hp hS hd hs
    obtain ⟨e1, e2⟩ := says_table hs
    simp only [direntKey, entryKey, fileEntryOf, e1, e2]
    by_cases hk : d.node.dirent.isDirectory = true
    · simp [hk]
    · have := hC p S d hp hS hd (by simpa using hk)
      simp [hk, this]
  simp only [List.mem_map]
  constructor
  · rintro ⟨⟨p, e⟩, hx, rfl⟩
    obtain ⟨hp, l, hl1, he⟩ := (a2 p e).1 hx
    obtain ⟨S, hS, hS'⟩ := Res.bind_eq_ok.1 hl1
    obtain rfl := Res.ok.inj hS'
    obtain ⟨d, hd, rfl⟩ := List.mem_map.1 he
    obtain ⟨c, hc, hs⟩ := g2 p S d hp hS hd
    exact ⟨_, hc, key p S d c hp hS hd hs⟩
  · rintro ⟨⟨P, c⟩, hx, rfl⟩
    obtain ⟨p, S, d, e1, hp, hS, hd, hs⟩ := g1 _ hx
    simp only at e1
    subst e1
    exact ⟨(p, fileEntryOf d), (a2 _ _).2 ⟨hp, _, by unfold imgReadDir; rw [hS]; rfl, List.mem_map_of_mem hd⟩,
      (key p S d c hp hS hd hs.symm).symm⟩

/-! ## Two images on which this fails -/

/-- An image of files whose contents are the first bytes of `1, 2, 3, 4, 5, 6`. -/
def sixImage (table : Bytes) : Bytes := List.replicate 65536 0 ++ (handImage table ++ [1, 2, 3, 4, 5, 6])

def sixContent (q : Path) : Bytes := if q = [['b']] then [1, 2] else [1, 2, 3, 4, 5]

theorem six_repack {table : Bytes} {ds : List DirEnt}
    (hv : readVolume (fileDev (sixImage table)) = .ok (VolDesc.new ⟨33, 2048⟩))
    (hs : scanAll (fileDev (sixImage table)) ⟨33, 2048⟩ 4 = .ok ds)
    (hd : ∀ d ∈ ds, d.node.dirent.isDirectory = false)
    (hc : ∀ d ∈ ds, readDataAll (fileDev (sixImage table)) d.node.dirent = .ok (sixContent [d.nameStr]))
    (hF : Fits [([], ds.map fileEntryOf)]) (hF2 : FewEntries (ds.map fileEntryOf))
    (hdist : DistinctNames ((ds.map fileEntryOf).map FileEntry.name))
    (hshort : ∀ e ∈ ds.map fileEntryOf, utf8Len e.name ≤ 255 ∧ Latin1 e.name) :
    ∃ s', repackImage (defaultCopier (fileDev (sixImage table))) (fun _ => none) 4 1
        ⟨fileDev (sixImage table), VolDesc.new ⟨33, 2048⟩, Trie.empty⟩ ⟨⟨[], []⟩, []⟩ = (.ok (), s') ∧
      ∃ vol listed' n, readVolume (fileDev s'.dev.img) = .ok vol ∧
        (∀ m, n ≤ m → fileTree (fileDev s'.dev.img) vol.root m = .ok listed') ∧
        ∀ k, k ∈ listed'.map (direntKey (fileDev s'.dev.img)) ↔
          k ∈ (ds.map fileEntryOf).map (fun e => entryKey sixContent ([], e)) := by
  have hn : ImgFs.new (fileDev (sixImage table)) =
      .ok (some ⟨fileDev (sixImage table), VolDesc.new ⟨33, 2048⟩, Trie.empty⟩) := by unfold ImgFs.new; rw [hv]
  obtain ⟨t1, t2, t3, t4⟩ := onlyFiles_tree hs hd
  have hcont : ImgContent (fileDev (sixImage table)) 4 ⟨33, 2048⟩ sixContent := by
    intro p S d hp hS hdm _
    rw [t1] at hp
    subst hp
    have : imgDirents (fileDev (sixImage table)) 4 ⟨33, 2048⟩ [] = .ok ds := by
      simp only [imgDirents, imgTable, Res.ok_bind]; exact hs
    rw [this] at hS
    obtain rfl := Res.ok.inj hS
    exact hc d hdm
  have hok := C61_valid_image_repacks_partial hn (defaultCopier_works (fileDev_parts _)) hcont t3 t4 hF
    (by intro x hx; rw [List.mem_singleton] at hx; subst hx; exact hdist)
    (by intro x hx; rw [List.mem_singleton] at hx; subst hx; exact hshort)
    (by intro x hx; rw [List.mem_singleton] at hx; subst hx; exact hF2) (Nat.le_refl _) ⟨⟨[], []⟩, []⟩
  rcases hr : repackImage (defaultCopier (fileDev (sixImage table))) (fun _ => none) 4 1
    ⟨fileDev (sixImage table), VolDesc.new ⟨33, 2048⟩, Trie.empty⟩ ⟨⟨[], []⟩, []⟩ with ⟨r, s'⟩
  simp only [List.length_singleton] at hok
  rw [hr] at hok
  simp only at hok
  subst hok
  refine ⟨s', rfl, ?_⟩
  obtain ⟨vol, v1, _, _, _, all, a1, a2, listed', f1, f2⟩ := C44_repack_preserves hn
    (defaultCopier_copies (fileDev_parts _)) hcont hr
  refine ⟨vol, listed', all.length + 2, v1, fun m hm => f1 m (by omega), fun k => ?_⟩
  rw [f2.mem_iff]
  simp only [List.mem_map]
  constructor
  · rintro ⟨⟨p, e⟩, hx, rfl⟩
    obtain ⟨hp, l, hl1, he⟩ := (a2 p e).1 hx
    obtain rfl := (t1 p).1 hp
    have : imgReadDir (fileDev (sixImage table)) 4 ⟨33, 2048⟩ [] = .ok l := hl1
    rw [t2] at this
    obtain rfl := Res.ok.inj this
    exact ⟨e, List.mem_map.1 he, rfl⟩
  · rintro ⟨e, he, rfl⟩
    exact ⟨([], e), (a2 _ _).2 ⟨.root, _, t2, List.mem_map.2 he⟩, rfl⟩

def keyA : Str × Str × Bool × Option (Nat × Res Bytes) := ([], ['a'], false, some (5, .ok [1, 2, 3, 4, 5]))
def keyB : Str × Str × Bool × Option (Nat × Res Bytes) := ([], ['b'], false, some (2, .ok [1, 2]))

theorem six_keys {dev : Dev} {l : List (Str × DirEnt)} (h1 : ∀ x ∈ l, x.2.node.dirent.isDirectory = false)
    (h2 : ∀ x ∈ l, readDataAll dev x.2.node.dirent = .ok (sixContent [x.2.nameStr])) :
    l.map (direntKey dev) = l.map (fun x => (x.1, x.2.nameStr, false,
      some (x.2.node.dirent.data.size.toNat, .ok (sixContent [x.2.nameStr])))) := by
  apply List.map_congr_left
  intro x hx
  simp [direntKey, h1 x hx, h2 x hx]

/-- The entry `a` of 5 bytes, and behind a gap the entry `b` of 2 bytes, to which the right link of `a` leads. -/
def gapTable : Bytes := oneEntry 0 8 34 5 0x80 97 ++ List.replicate 16 0xff ++ oneEntry 0 0 34 2 0x80 98

def gapListing : List (Str × DirEnt) := [([], oneDirEnt 0 8 34 5 0x80 97 67584), ([], oneDirEnt 0 0 34 2 0x80 98 67616)]

set_option maxRecDepth 20000 in
theorem gap_volume : readVolume (fileDev (sixImage gapTable)) = .ok (VolDesc.new ⟨33, 2048⟩) := by
  rw [sixImage, handDev_eq]; decide +kernel

set_option maxRecDepth 20000 in
theorem gap_listed : fileTree (fileDev (sixImage gapTable)) ⟨33, 2048⟩ 4 = .ok gapListing := by
  rw [sixImage, handDev_eq]; decide +kernel

set_option maxRecDepth 20000 in
theorem gap_stored : scanAll (fileDev (sixImage gapTable)) ⟨33, 2048⟩ 4 = .ok [oneDirEnt 0 8 34 5 0x80 97 0] := by
  rw [sixImage, handDev_eq]; decide +kernel

set_option maxRecDepth 20000 in
theorem gap_read : ∀ x ∈ gapListing, readDataAll (fileDev (sixImage gapTable)) x.2.node.dirent =
    .ok (sixContent [x.2.nameStr]) := by
  rw [sixImage, handDev_eq]; decide +kernel

theorem gap_keys : gapListing.map (direntKey (fileDev (sixImage gapTable))) = [keyA, keyB] := by
  rw [six_keys (by decide) gap_read]; rfl

set_option maxRecDepth 20000 in
theorem gap_data : readDataAll (fileDev (sixImage gapTable)) (oneDirEnt 0 8 34 5 0x80 97 0).node.dirent =
    .ok [1, 2, 3, 4, 5] := by
  rw [sixImage, handDev_eq]; decide +kernel

/-- **C137** is false in general: this image lists the files `a` and `b`, repacking it succeeds, and the new image has no `b`.
The entry of `b` is stored behind a gap in the table; the links lead to it, but repacking takes the gap for the end of the
sector. -/
theorem C137_entry_lost_false : ∃ fs s', ImgFs.new (fileDev (sixImage gapTable)) = .ok (some fs) ∧
    fileTree (fileDev (sixImage gapTable)) fs.vol.root 4 = .ok gapListing ∧
    gapListing.map (direntKey (fileDev (sixImage gapTable))) = [keyA, keyB] ∧
    repackImage (defaultCopier (fileDev (sixImage gapTable))) (fun _ => none) 4 1 fs ⟨⟨[], []⟩, []⟩ = (.ok (), s') ∧
    ∃ vol listed' n, readVolume (fileDev s'.dev.img) = .ok vol ∧
      (∀ m, n ≤ m → fileTree (fileDev s'.dev.img) vol.root m = .ok listed') ∧
      ∀ k, k ∈ listed'.map (direntKey (fileDev s'.dev.img)) ↔ k = keyA := by
  obtain ⟨s', h1, vol, listed', n, h2, h3, h4⟩ := six_repack gap_volume gap_stored (by decide)
    (by intro d hd; rw [List.mem_singleton] at hd; subst hd; exact gap_data)
    (by unfold Fits; decide) (by unfold FewEntries; decide) (by unfold DistinctNames; decide) (by unfold Latin1; decide)
  refine ⟨⟨fileDev (sixImage gapTable), VolDesc.new ⟨33, 2048⟩, Trie.empty⟩, s', by unfold ImgFs.new; rw [gap_volume],
    gap_listed, gap_keys, h1, vol, listed', n, h2, h3, fun k => ?_⟩
  rw [h4]
  have : ([oneDirEnt 0 8 34 5 0x80 97 0].map fileEntryOf).map (fun e => entryKey sixContent ([], e)) = [keyA] := rfl
  rw [this, List.mem_singleton]

/-- The entry `a` of 5 bytes without links, and directly behind it the entry `b` of 2 bytes. -/
def strayTable : Bytes := oneEntry 0 0 34 5 0x80 97 ++ oneEntry 0 0 34 2 0x80 98

def strayListing : List (Str × DirEnt) := [([], oneDirEnt 0 0 34 5 0x80 97 67584)]

def strayStored : List DirEnt := [oneDirEnt 0 0 34 5 0x80 97 0, oneDirEnt 0 0 34 2 0x80 98 16]

set_option maxRecDepth 20000 in
theorem stray_volume : readVolume (fileDev (sixImage strayTable)) = .ok (VolDesc.new ⟨33, 2048⟩) := by
  rw [sixImage, handDev_eq]; decide +kernel

set_option maxRecDepth 20000 in
theorem stray_listed : fileTree (fileDev (sixImage strayTable)) ⟨33, 2048⟩ 4 = .ok strayListing := by
  rw [sixImage, handDev_eq]; decide +kernel

set_option maxRecDepth 20000 in
theorem stray_stored : scanAll (fileDev (sixImage strayTable)) ⟨33, 2048⟩ 4 = .ok strayStored := by
  rw [sixImage, handDev_eq]; decide +kernel

set_option maxRecDepth 20000 in
theorem stray_read : ∀ x ∈ strayListing, readDataAll (fileDev (sixImage strayTable)) x.2.node.dirent =
    .ok (sixContent [x.2.nameStr]) := by
  rw [sixImage, handDev_eq]; decide +kernel

theorem stray_keys : strayListing.map (direntKey (fileDev (sixImage strayTable))) = [keyA] := by
  rw [six_keys (by decide) stray_read]; rfl

set_option maxRecDepth 20000 in
theorem stray_data : ∀ d ∈ strayStored, readDataAll (fileDev (sixImage strayTable)) d.node.dirent =
    .ok (sixContent [d.nameStr]) := by
  rw [sixImage, handDev_eq]; decide +kernel

/-- **C137** is false in general: this image lists only the file `a`, repacking it succeeds, and the new image also lists `b`,
whose entry is stored in the table but no link leads to it. -/
theorem C137_entry_appears_false : ∃ fs s', ImgFs.new (fileDev (sixImage strayTable)) = .ok (some fs) ∧
    fileTree (fileDev (sixImage strayTable)) fs.vol.root 4 = .ok strayListing ∧
    strayListing.map (direntKey (fileDev (sixImage strayTable))) = [keyA] ∧
    repackImage (defaultCopier (fileDev (sixImage strayTable))) (fun _ => none) 4 1 fs ⟨⟨[], []⟩, []⟩ = (.ok (), s') ∧
    ∃ vol listed' n, readVolume (fileDev s'.dev.img) = .ok vol ∧
      (∀ m, n ≤ m → fileTree (fileDev s'.dev.img) vol.root m = .ok listed') ∧
      ∀ k, k ∈ listed'.map (direntKey (fileDev s'.dev.img)) ↔ k = keyA ∨ k = keyB := by
  obtain ⟨s', h1, vol, listed', n, h2, h3, h4⟩ := six_repack stray_volume stray_stored (by decide) stray_data
    (by unfold Fits; decide) (by unfold FewEntries; decide) (by unfold DistinctNames; decide) (by unfold Latin1; decide)
  refine ⟨⟨fileDev (sixImage strayTable), VolDesc.new ⟨33, 2048⟩, Trie.empty⟩, s', by unfold ImgFs.new; rw [stray_volume],
    stray_listed, stray_keys, h1, vol, listed', n, h2, h3, fun k => ?_⟩
  rw [h4]
  have : (strayStored.map fileEntryOf).map (fun e => entryKey sixContent ([], e)) = [keyA, keyB] := rfl
  rw [this]
  simp

/-! ## An image on which it holds -/

/-- The entry `b` of 2 bytes, whose left link leads to the entry `a` of 5 bytes directly behind it: not a table that packing
would write. -/
def linkedTable : Bytes := oneEntry 4 0 34 2 0x80 98 ++ oneEntry 0 0 34 5 0x80 97

def linkedListing : List (Str × DirEnt) := [([], oneDirEnt 4 0 34 2 0x80 98 67584), ([], oneDirEnt 0 0 34 5 0x80 97 67600)]

def linkedStored : List DirEnt := [oneDirEnt 4 0 34 2 0x80 98 0, oneDirEnt 0 0 34 5 0x80 97 16]

set_option maxRecDepth 20000 in
theorem linked_volume : readVolume (fileDev (sixImage linkedTable)) = .ok (VolDesc.new ⟨33, 2048⟩) := by
  rw [sixImage, handDev_eq]; decide +kernel

set_option maxRecDepth 20000 in
theorem linked_listed : fileTree (fileDev (sixImage linkedTable)) ⟨33, 2048⟩ 4 = .ok linkedListing := by
  rw [sixImage, handDev_eq]; decide +kernel

set_option maxRecDepth 20000 in
theorem linked_walked : walkDirentTree (fileDev (sixImage linkedTable)) ⟨33, 2048⟩ 4 = .ok (linkedListing.map Prod.snd) := by
  rw [sixImage, handDev_eq]; decide +kernel

set_option maxRecDepth 20000 in
theorem linked_stored : scanAll (fileDev (sixImage linkedTable)) ⟨33, 2048⟩ 4 = .ok linkedStored := by
  rw [sixImage, handDev_eq]; decide +kernel

set_option maxRecDepth 20000 in
theorem linked_data : ∀ d ∈ linkedStored, readDataAll (fileDev (sixImage linkedTable)) d.node.dirent =
    .ok (sixContent [d.nameStr]) := by
  rw [sixImage, handDev_eq]; decide +kernel

/-- The hypotheses hold for this image, and repacking it succeeds. -/
example : ∃ fs s', ImgFs.new (fileDev (sixImage linkedTable)) = .ok (some fs) ∧
    repackImage (defaultCopier (fileDev (sixImage linkedTable))) (fun _ => none) 4 1 fs ⟨⟨[], []⟩, []⟩ = (.ok (), s') ∧
    ∃ vol listed' n, readVolume (fileDev s'.dev.img) = .ok vol ∧
      (∀ m, n ≤ m → fileTree (fileDev s'.dev.img) vol.root m = .ok listed') ∧
      ∀ k, k ∈ listed'.map (direntKey (fileDev s'.dev.img)) ↔
        k ∈ linkedListing.map (direntKey (fileDev (sixImage linkedTable))) := by
  obtain ⟨s', h1, _⟩ := six_repack linked_volume linked_stored (by decide) linked_data
    (by unfold Fits; decide) (by unfold FewEntries; decide) (by unfold DistinctNames; decide) (by unfold Latin1; decide)
  have hn : ImgFs.new (fileDev (sixImage linkedTable)) =
      .ok (some ⟨fileDev (sixImage linkedTable), VolDesc.new ⟨33, 2048⟩, Trie.empty⟩) := by
    unfold ImgFs.new; rw [linked_volume]
  refine ⟨_, s', hn, h1, C137_repack_keeps_listing_partial hn (defaultCopier_copies (fileDev_parts _)) linked_listed
    ⟨⟨_, _, linked_walked, linked_stored, by decide⟩, ?_⟩ ?_ h1⟩
  · intro x hx t ht
    simp only [linkedListing, List.mem_cons, List.not_mem_nil, or_false] at hx
    rcases hx with rfl | rfl <;> cases ht
  · intro x hx _
    simp only [linkedListing, List.mem_cons, List.not_mem_nil, or_false] at hx
    rcases hx with rfl | rfl
    · exact ⟨_, linked_data (oneDirEnt 4 0 34 2 0x80 98 0) (by decide)⟩
    · exact ⟨_, linked_data (oneDirEnt 0 0 34 5 0x80 97 16) (by decide)⟩

end Xdvdfs.Props
