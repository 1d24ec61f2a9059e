import Verif.Props.Repack

/-! # C131: attributes and time stamp

Every directory entry of an image has an attribute byte (`attrs`: read-only 0x01, hidden 0x02, system
0x04, directory 0x10, archive 0x20, normal 0x80) and the volume descriptor a time stamp (`filetime`).
-/

namespace Xdvdfs.Props

open TabWriter Spec

/-- The attributes every entry of a packed image has. -/
def standardAttrs (isDir : Bool) : UInt8 := if isDir then 0x10 else 0x20

theorem Img.find_attrs {rd : ReadDir} {content : Path → Bytes} {dev : Dev} {M : PathMap TabWriter}
    {Loc : Path → Listing → Prop} (h : Img rd content dev M Loc) {p : Path} {l : Listing} (hl : Loc p l)
    (hd : l.isDir = true) (name : Str) {fuel : Nat} (hf : SearchBudget rd fuel) {d : DirEnt}
    (hr : findDirent dev (regionOf l) name fuel = .ok d) :
    d.node.dirent.attrs = standardAttrs d.node.dirent.isDirectory := by
  obtain ⟨hdir, lst, w, r, n, n', h1, h2, h3, h4, h5, h6⟩ := h.dirs p l hl hd
  obtain ⟨c1, c2⟩ := C23_lookup h3 h4 h5 name
  have hb := hf p lst hdir h1
  by_cases hex : ∃ e ∈ lst, SameName e.name name
  · obtain ⟨e, he, hs⟩ := hex
    obtain ⟨d', l', g1, g2, g3, g4, _⟩ := c1 (itemOf M p e) (List.mem_map_of_mem he) hs
    rw [g1 fuel (by simpa using hb)] at hr
    cases hr
    rw [isDirectory_attrs g4, g4]
    rfl
  · have := c2 (by
      intro it hit
      obtain ⟨e, he, rfl⟩ := List.mem_map.1 hit
      exact fun hs => hex ⟨e, he, hs⟩) fuel (by simpa using hb)
    rw [this] at hr; cases hr

theorem Img.walk_attrs {rd : ReadDir} {content : Path → Bytes} {dev : Dev} {M : PathMap TabWriter}
    {Loc : Path → Listing → Prop} (h : Img rd content dev M Loc) {fuel : Nat} (hf : SearchBudget rd fuel) :
    ∀ (q : Path) {p : Path} {l : Listing} {d : DirEnt}, Loc p l → l.isDir = true →
      walkSegments dev fuel (regionOf l) q = .ok d →
      d.node.dirent.attrs = standardAttrs d.node.dirent.isDirectory := by
  intro q
  induction q with
  | nil => intro p l d _ _ hw; cases hw
  | cons s qs ih =>
    intro p l d hl hd hw
    obtain ⟨d1, hfind, hw⟩ := Res.bind_eq_ok.1 hw
    split at hw
    · simp only [Res.pure_eq, Res.ok.injEq] at hw
      subst hw
      exact Img.find_attrs h hl hd s hf hfind
    · obtain ⟨lst, hdir, hrd, hcase⟩ := h.find hl hd s hf
      rcases hcase with ⟨e1, d2, l', he1, hs1, hfind2, hn1, hr1, hk1, hloc, hk2⟩ | ⟨_, hfind2⟩
      · rw [hfind] at hfind2
        cases hfind2
        obtain ⟨t, ht, hw⟩ := Res.bind_eq_ok.1 hw
        unfold DiskData.direntTable at ht
        cases hd1 : d1.node.dirent.isDirectory with
        | false => rw [hd1] at ht; simp [Res.ofOption] at ht
        | true =>
          rw [hd1, if_pos rfl] at ht
          simp only [Res.ofOption_some, Res.ok.injEq] at ht
          subst ht
          rw [hr1] at hw
          exact ih hloc (by rw [hk2, ← hk1, hd1]) hw
      · rw [hfind] at hfind2; cases hfind2

theorem _root_.Xdvdfs.Packed.attrs {fs : SourceFs} {content : Path → Bytes} {img : Bytes} {M : PathMap TabWriter}
    {Loc : Path → Listing → Prop} {l0 : Listing} (h : Packed fs content img M Loc l0) {fuel : Nat}
    (hf : SearchBudget fs.readDir fuel) {path : Str} {d : DirEnt}
    (hw : walkPath (fileDev img) (regionOf l0) path fuel = .ok d) :
    d.node.dirent.attrs = standardAttrs d.node.dirent.isDirectory := by
  unfold walkPath at hw
  split at hw
  · cases hw
  · exact Img.walk_attrs h.image hf _ h.root h.rootDir hw

/-- C131.  After a successful pack the volume has the time stamp 0, and whatever path is looked up,
the entry found has the attribute byte 0x10 (directory) if it is a directory and 0x20 (archive) if it
is a file. -/
theorem C131_packed_attributes {fs : SourceFs} {faults : Faults} {fuel : Nat} {img0 : Bytes}
    {s' : PackState ImgFile} {content : Path → Bytes} (hb : Bounded fs) (hf : FaithfulTo fs content)
    (h : createImage (fileEnv fs faults) fuel ⟨⟨img0, []⟩, []⟩ = (.ok (), s')) :
    ∃ vol : VolDesc, readVolume (fileDev s'.dev.img) = .ok vol ∧ vol.filetime = 0 ∧
      ∀ path lf d, SearchBudget fs.readDir lf → walkPath (fileDev s'.dev.img) vol.root path lf = .ok d →
        d.node.dirent.attrs = if d.node.dirent.isDirectory then 0x10 else 0x20 := by
  obtain ⟨M, Loc, l0, hP⟩ := pack_packed hb hf h
  exact ⟨_, hP.volume, rfl, fun path lf d h1 h2 => hP.attrs h1 h2⟩

/-- The hypotheses of `C131_packed_attributes` are met by the sample tree, and its image has entries of
both kinds. -/
example : ∃ s', createImage (fileEnv sampleFs' (fun _ => none)) 3 ⟨⟨[], []⟩, []⟩ = (.ok (), s') ∧
    ∃ vol : VolDesc, readVolume (fileDev s'.dev.img) = .ok vol ∧ vol.filetime = 0 := by
  obtain ⟨s', h⟩ := sample_packs []
  obtain ⟨vol, h1, h2, _⟩ := C131_packed_attributes sample'_bounded sample'_faithful h
  exact ⟨s', h, vol, h1, h2⟩

/-- C126, inside of the descriptor: after a successful pack it holds the magic numbers and the place and size of the root
directory, and every other byte of it is zero, the time stamp included. -/
theorem C126_descriptor {fs : SourceFs} {faults : Faults} {fuel : Nat} {img0 : Bytes}
    {s' : PackState ImgFile} {content : Path → Bytes} (hb : Bounded fs) (hf : FaithfulTo fs content)
    (h : createImage (fileEnv fs faults) fuel ⟨⟨img0, []⟩, []⟩ = (.ok (), s')) :
    67584 ≤ s'.dev.img.length ∧ Spec.IsVolume (slice s'.dev.img 65536 2048) ∧
      ∀ i b, s'.dev.img[i]? = some b → 65564 ≤ i → i < 67564 → b = 0 := by
  obtain ⟨M, Loc, l0, hP⟩ := pack_packed hb hf h
  obtain ⟨b, h1, h2, h3⟩ := (C06_read_volume_iff _ _).1 hP.volume
  change fileRead s'.dev.img 65536 2048 = .ok b at h1
  unfold fileRead at h1
  rw [if_neg (by decide)] at h1
  split at h1
  · next hle =>
    cases h1
    refine ⟨by omega, h2, ?_⟩
    intro i x hx hi1 hi2
    have hl : (slice s'.dev.img 65536 2048).length = 2048 := by
      unfold slice
      rw [List.length_take, List.length_drop]
      omega
    have e := C02_volume_roundtrip_bytes _ hl
    have hi : (slice s'.dev.img 65536 2048)[i - 65536]? = some x := by
      unfold slice
      rw [List.getElem?_take_of_lt (by omega), List.getElem?_drop, show 65536 + (i - 65536) = i by omega]
      exact hx
    rw [← e, ← h3] at hi
    have hz : ∀ (r : Region), (VolDesc.new r).ser =
        (volumeMagic ++ (natLE 4 r.sector.toNat ++ natLE 4 r.size.toNat)) ++ (List.replicate 2000 0 ++ volumeMagic) := by
      intro r
      have : natLE 8 0 ++ (List.replicate 0x7c8 (0 : UInt8) ++ volumeMagic) = List.replicate 2000 0 ++ volumeMagic := by
        rw [← List.append_assoc, show natLE 8 0 = List.replicate 8 0 by decide, List.replicate_append_replicate]
      have h0 : (0 : UInt64).toNat = 0 := rfl
      unfold VolDesc.ser VolDesc.new
      simp only [List.append_assoc, h0, this]
    have hlen : ∀ r : Region, (volumeMagic ++ (natLE 4 r.sector.toNat ++ natLE 4 r.size.toNat)).length = 28 := by
      intro r
      rw [List.length_append, List.length_append, natLE_length, natLE_length]
      rfl
    rw [hz, List.getElem?_append_right (by rw [hlen]; omega), hlen,
      List.getElem?_append_left (by rw [List.length_replicate]; omega), List.getElem?_replicate] at hi
    split at hi
    · cases hi; rfl
    · cases hi
  · cases h1

/-- The hypotheses of `C126_descriptor` are met by the sample tree. -/
example : ∃ s', createImage (fileEnv sampleFs' (fun _ => none)) 3 ⟨⟨[], []⟩, []⟩ = (.ok (), s') ∧
    67584 ≤ s'.dev.img.length := by
  obtain ⟨s', h⟩ := sample_packs []
  exact ⟨s', h, (C126_descriptor sample'_bounded sample'_faithful h).1⟩

theorem repack_packed {dev : Dev} {fs : ImgFs} (hn : ImgFs.new dev = .ok (some fs)) {copier : Copier}
    (hcop : CopiesFrom dev copier) {faults : Faults} {wf fuel : Nat} {img0 : Bytes}
    {s' : PackState ImgFile} {content : Path → Bytes} (hcont : ImgContent dev wf fs.vol.root content)
    (h : repackImage copier faults wf fuel fs ⟨⟨img0, []⟩, []⟩ = (.ok (), s')) :
    ∃ src M Loc l0, src.readDir = imgReadDir dev wf fs.vol.root ∧
      Packed src content s'.dev.img M Loc l0 := by
  obtain ⟨rfl, hc, _⟩ := new_spec hn
  rcases repack_cases hc h with ⟨fs', h1, h2, h3⟩ | ⟨h1, _⟩
  · have hrd : (pureSource wf copier fs').readDir = imgReadDir fs.dev wf fs.vol.root := by
      simp only [pureSource]; rw [h1.dev, h1.vol]
    obtain ⟨D, M, rootW, rootSize, next, recs, n', hS⟩ := shape_of_success h3
    have hdist := PlanShape.allDistinct (fs := pureSource wf copier fs') hS
    obtain ⟨M', Loc, l0, hP⟩ := pack_packed (pureSource_bounded hcop)
      (pureSource_faithful h1 h2 (by rw [← hrd]; exact hdist) hcop hcont) h3
    exact ⟨_, M', Loc, l0, hrd, hP⟩
  · exact absurd rfl (h1 ())

/-- C131 for repacking an image with the attributes and the time stamp this program writes: they are
kept.  Every entry of the source is found in the new image under its path, in any letter case, with
its name and its attributes.  Missing: images with other attributes or a time stamp, see
`C131_repack_loses_attributes_false`. -/
theorem C131_repack_attributes_partial {dev : Dev} {fs : ImgFs} (hn : ImgFs.new dev = .ok (some fs))
    {copier : Copier} (hcop : CopiesFrom dev copier) {faults : Faults} {wf fuel : Nat} {img0 : Bytes}
    {s' : PackState ImgFile} {content : Path → Bytes} (hcont : ImgContent dev wf fs.vol.root content)
    (h : repackImage copier faults wf fuel fs ⟨⟨img0, []⟩, []⟩ = (.ok (), s'))
    (ht : fs.vol.filetime = 0)
    (ha : ∀ p ds d, DirOf (imgReadDir dev wf fs.vol.root) p →
      imgDirents dev wf fs.vol.root p = .ok ds → d ∈ ds →
      d.node.dirent.attrs = if d.node.dirent.isDirectory then 0x10 else 0x20) :
    ∃ vol : VolDesc, readVolume (fileDev s'.dev.img) = .ok vol ∧ vol.filetime = fs.vol.filetime ∧
      ∀ p ds d, DirOf (imgReadDir dev wf fs.vol.root) p →
        imgDirents dev wf fs.vol.root p = .ok ds → d ∈ ds →
        ∀ q lf, SamePath (p ++ [d.nameStr]) q → PlainPath q →
          SearchBudget (imgReadDir dev wf fs.vol.root) lf →
          ∃ d', walkPath (fileDev s'.dev.img) vol.root (slashPath q) lf = .ok d' ∧
            d'.nameStr = d.nameStr ∧ d'.node.dirent.attrs = d.node.dirent.attrs := by
  obtain ⟨src, M, Loc, l0, hrd, hP⟩ := repack_packed hn hcop hcont h
  refine ⟨_, hP.volume, by rw [ht]; rfl, ?_⟩
  intro p ds d hp hds hd q lf hs hq hb
  have he : EntryIn src.readDir p (fileEntryOf d) := by
    rw [hrd]
    refine ⟨hp, ds.map fileEntryOf, ?_, List.mem_map_of_mem hd⟩
    simp only [imgReadDir, hds, Res.ok_bind, Res.pure_eq]
  obtain ⟨d', l', g1, g2, g3, g4, _⟩ := hP.image.entry_lookup hP.distinct hP.root hP.rootDir he
    (q := q) (fuel := lf) hs hq (by rw [hrd]; exact hb)
  refine ⟨d', g1, g2, ?_⟩
  rw [hP.attrs (by rw [hrd]; exact hb) g1, ha p ds d hp hds hd, g4]
  rfl

/-! ## Images with one file -/

/-- The entry of a file `a` of three bytes in sector 34, with the attributes `a`. -/
def attrEntry (a : UInt8) : DirEnt := ⟨⟨0, 0, ⟨⟨34, 3⟩, a, 1⟩⟩, [0x61], 0⟩

def attrVol (t : UInt64) : VolDesc := { VolDesc.new ⟨33, 2048⟩ with filetime := t }

/-- An image with the time stamp `t` and one file `a` with the attributes `a` and the content 1, 2, 3. -/
def attrImage (t : UInt64) (a : UInt8) : Bytes := List.replicate 65536 0 ++
  ((attrVol t).ser ++ (((attrEntry a).node.ser ++ [0x61]) ++ List.replicate 2033 0xff) ++ [1, 2, 3])

set_option maxRecDepth 20000 in
theorem attr_ro_volume : readVolume (fileDev (attrImage 5 0x21)) = .ok (attrVol 5) := by
  rw [attrImage, handDev_eq]; decide +kernel

set_option maxRecDepth 20000 in
theorem attr_ro_scan : scanAll (fileDev (attrImage 5 0x21)) ⟨33, 2048⟩ 2 = .ok [attrEntry 0x21] := by
  rw [attrImage, handDev_eq]; decide +kernel

set_option maxRecDepth 20000 in
theorem attr_ro_read : readDataAll (fileDev (attrImage 5 0x21)) (attrEntry 0x21).node.dirent = .ok [1, 2, 3] := by
  rw [attrImage, handDev_eq]; decide +kernel

set_option maxRecDepth 20000 in
theorem attr_rw_volume : readVolume (fileDev (attrImage 0 0x20)) = .ok (attrVol 0) := by
  rw [attrImage, handDev_eq]; decide +kernel

set_option maxRecDepth 20000 in
theorem attr_rw_scan : scanAll (fileDev (attrImage 0 0x20)) ⟨33, 2048⟩ 2 = .ok [attrEntry 0x20] := by
  rw [attrImage, handDev_eq]; decide +kernel

set_option maxRecDepth 20000 in
theorem attr_rw_read : readDataAll (fileDev (attrImage 0 0x20)) (attrEntry 0x20).node.dirent = .ok [1, 2, 3] := by
  rw [attrImage, handDev_eq]; decide +kernel

theorem attr_fs {t : UInt64} {a : UInt8} (h : readVolume (fileDev (attrImage t a)) = .ok (attrVol t)) :
    ImgFs.new (fileDev (attrImage t a)) = .ok (some ⟨fileDev (attrImage t a), attrVol t, Trie.empty⟩) := by
  unfold ImgFs.new; rw [h]

theorem attr_dirents {dev : Dev} {a : UInt8} (hs : scanAll dev ⟨33, 2048⟩ 2 = .ok [attrEntry a])
    (ha : (attrEntry a).node.dirent.isDirectory = false) {p : Path} {ds : List DirEnt}
    (hp : DirOf (imgReadDir dev 2 ⟨33, 2048⟩) p)
    (hds : imgDirents dev 2 ⟨33, 2048⟩ p = .ok ds) : p = [] ∧ ds = [attrEntry a] := by
  obtain ⟨t1, t2, t3, t4⟩ := onlyFiles_tree hs (by simpa using ha)
  rw [t1] at hp
  subst hp
  simp only [imgDirents, imgTable, Res.ok_bind] at hds
  rw [hs] at hds
  cases hds
  exact ⟨rfl, rfl⟩

theorem attr_content {dev : Dev} {a : UInt8} (hs : scanAll dev ⟨33, 2048⟩ 2 = .ok [attrEntry a])
    (ha : (attrEntry a).node.dirent.isDirectory = false)
    (hr : readDataAll dev (attrEntry a).node.dirent = .ok [1, 2, 3]) :
    ImgContent dev 2 ⟨33, 2048⟩ (fun _ => [1, 2, 3]) := by
  intro p ds d hp hds hd _
  obtain ⟨_, rfl⟩ := attr_dirents hs ha hp hds
  simp only [List.mem_singleton] at hd
  subst hd
  exact hr

theorem attr_repacks {t : UInt64} {a : UInt8}
    (hs : scanAll (fileDev (attrImage t a)) ⟨33, 2048⟩ 2 = .ok [attrEntry a])
    (ha : (attrEntry a).node.dirent.isDirectory = false)
    (hr : readDataAll (fileDev (attrImage t a)) (attrEntry a).node.dirent = .ok [1, 2, 3])
    (s : PackState ImgFile) :
    (repackImage (defaultCopier (fileDev (attrImage t a))) (fun _ => none) 2 1
      ⟨fileDev (attrImage t a), attrVol t, Trie.empty⟩ s).1 = .ok () := by
  obtain ⟨t1, t2, t3, t4⟩ := onlyFiles_tree hs (by simpa using ha)
  have h0 : (fileEntryOf (attrEntry a)).name = ['a'] := by
    show (attrEntry 0x20).nameStr = ['a']
    decide
  have h1 : fileEntryOf (attrEntry a) = ⟨['a'], false, 3⟩ := by
    rw [← h0, ← ha]; rfl
  rw [List.map_cons, List.map_nil, h1] at t4
  refine repack_works rfl (defaultCopier_works (fileDev_parts _)) (attr_content hs ha hr) t3 t4
    (by unfold Fits; decide) ?_ ?_ ?_ (by decide) s
  · intro x hx
    simp only [List.mem_singleton] at hx
    subst hx
    refine ⟨by simp [DistinctNames], ?_⟩
    intro e he
    simp only [List.mem_singleton] at he
    subst he
    refine ⟨by decide, ?_, fun _ => by decide⟩
    intro c hc
    have : c = 'a' := by simpa using hc
    subst this
    exact ⟨0x61, by decide⟩
  · intro x hx
    simp only [List.mem_singleton] at hx
    subst hx
    exact few_within (by unfold FewEntries; decide)
  · intro x hx e he
    simp only [List.mem_singleton] at hx
    subst hx
    simp only [List.mem_singleton] at he
    subst he
    intro c hc
    have : c = 'a' := by simpa using hc
    subst this
    decide

/-- The hypotheses of `C131_repack_attributes_partial` are met by an image with one file. -/
example : ∃ (fs : ImgFs) (s' : PackState ImgFile), ImgFs.new (fileDev (attrImage 0 0x20)) = .ok (some fs) ∧
    repackImage (defaultCopier (fileDev (attrImage 0 0x20))) (fun _ => none) 2 1 fs ⟨⟨[], []⟩, []⟩
      = (.ok (), s') ∧
    fs.vol.filetime = 0 ∧
    ImgContent (fileDev (attrImage 0 0x20)) 2 fs.vol.root (fun _ => [1, 2, 3]) ∧
    CopiesFrom (fileDev (attrImage 0 0x20)) (defaultCopier (fileDev (attrImage 0 0x20))) ∧
    (∀ p ds d, DirOf (imgReadDir (fileDev (attrImage 0 0x20)) 2 fs.vol.root) p →
      imgDirents (fileDev (attrImage 0 0x20)) 2 fs.vol.root p = .ok ds → d ∈ ds →
      d.node.dirent.attrs = if d.node.dirent.isDirectory then 0x10 else 0x20) := by
  have hrun := attr_repacks attr_rw_scan (by decide) attr_rw_read ⟨⟨[], []⟩, []⟩
  rcases hr : repackImage (defaultCopier (fileDev (attrImage 0 0x20))) (fun _ => none) 2 1
    ⟨fileDev (attrImage 0 0x20), attrVol 0, Trie.empty⟩ ⟨⟨[], []⟩, []⟩ with ⟨res, s'⟩
  rw [hr] at hrun
  simp only at hrun
  subst hrun
  refine ⟨_, s', attr_fs attr_rw_volume, hr, rfl, attr_content attr_rw_scan (by decide) attr_rw_read,
    defaultCopier_copies (fileDev_parts _), ?_⟩
  intro p ds d hp hds hd
  obtain ⟨_, rfl⟩ := attr_dirents attr_rw_scan (by decide) hp hds
  simp only [List.mem_singleton] at hd
  subst hd
  decide

/-- C131 is false for images with other attributes: an image with the time stamp 5 and a read-only
file `a` repacks successfully; in the new image the time stamp is 0 and the file is not read-only. -/
theorem C131_repack_loses_attributes_false :
    ∃ (fs : ImgFs) (s' : PackState ImgFile) (vol : VolDesc) (d : DirEnt),
      ImgFs.new (fileDev (attrImage 5 0x21)) = .ok (some fs) ∧
      imgDirents (fileDev (attrImage 5 0x21)) 2 fs.vol.root [] = .ok [attrEntry 0x21] ∧
      repackImage (defaultCopier (fileDev (attrImage 5 0x21))) (fun _ => none) 2 1 fs ⟨⟨[], []⟩, []⟩ = (.ok (), s') ∧
      readVolume (fileDev s'.dev.img) = .ok vol ∧
      walkPath (fileDev s'.dev.img) vol.root (slashPath [(attrEntry 0x21).nameStr]) 4 = .ok d ∧
      d.nameStr = (attrEntry 0x21).nameStr ∧
      (attrEntry 0x21).node.dirent.attrs = 0x21 ∧ d.node.dirent.attrs = 0x20 ∧
      fs.vol.filetime = 5 ∧ vol.filetime = 0 := by
  have hrun := attr_repacks attr_ro_scan (by decide) attr_ro_read ⟨⟨[], []⟩, []⟩
  rcases hr : repackImage (defaultCopier (fileDev (attrImage 5 0x21))) (fun _ => none) 2 1
    ⟨fileDev (attrImage 5 0x21), attrVol 5, Trie.empty⟩ ⟨⟨[], []⟩, []⟩ with ⟨res, s'⟩
  rw [hr] at hrun
  simp only at hrun
  subst hrun
  obtain ⟨t1, t2, t3, t4⟩ := onlyFiles_tree attr_ro_scan (by decide)
  obtain ⟨src, M, Loc, l0, hrd, hP⟩ := repack_packed (attr_fs attr_ro_volume)
    (defaultCopier_copies (fileDev_parts _)) (attr_content attr_ro_scan (by decide) attr_ro_read) hr
  have hb : SearchBudget src.readDir 4 := by
    intro p l hp hl
    rw [hrd] at hp hl
    have hp' := (t1 p).1 hp
    subst hp'
    have := t2.symm.trans hl
    cases this
    decide
  have he : EntryIn src.readDir [] (fileEntryOf (attrEntry 0x21)) := by
    rw [hrd]
    exact ⟨.root, _, t2, by simp⟩
  have hname : (attrEntry 0x21).nameStr = ['a'] := by decide
  obtain ⟨d, l', g1, g2, g3, g4, _⟩ := hP.image.entry_lookup hP.distinct hP.root hP.rootDir he
    (q := [(attrEntry 0x21).nameStr]) (fuel := 4) rfl (by rw [hname]; simp [PlainPath]) hb
  refine ⟨_, s', _, d, (attr_fs attr_ro_volume), ?_, hr, hP.volume, g1, g2, rfl, ?_, rfl, rfl⟩
  · simp only [imgDirents, imgTable, Res.ok_bind]
    exact attr_ro_scan
  · rw [hP.attrs hb g1, g4]; rfl

end Xdvdfs.Props
