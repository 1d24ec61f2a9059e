import Verif.Props.Show
import Verif.Props.Attributes

/-!
# C59 and C131, exactly

C59 for images of any origin: which entries `info` prints truly, and what it does otherwise.  C131 for repacking images of
any origin: which attributes are kept, and what the others become.
-/

namespace Xdvdfs.Spec

/-- The entries `info` is asked about: for `/` those of the root directory, otherwise the entry at the path, followed, for
a directory, by its entries. -/
def AskedFor (dev : Dev) (root : Region) (path : Str) (fuel : Nat) (ds : List DirEnt) : Prop :=
  (path = ['/'] ∧ walkDirentTree dev root fuel = .ok ds) ∨
  (path ≠ ['/'] ∧ ∃ d, walkPath dev root path fuel = .ok d ∧
    ((d.node.dirent.isDirectory = false ∧ ds = [d]) ∨
     (d.node.dirent.isDirectory = true ∧ ∃ l, walkDirentTree dev d.node.dirent.data fuel = .ok l ∧ ds = d :: l)))

/-- Both children of the entry are stored in the first 64 KiB of the table. -/
def LowLinks (d : DirEnt) : Prop := 4 * d.node.left.toNat < 65536 ∧ 4 * d.node.right.toNat < 65536

/-- The printed entries are the given ones, in order, each described truly. -/
def AllTrue (infos : List DirentInfo) (ds : List DirEnt) : Prop :=
  infos.length = ds.length ∧ ∀ x ∈ infos.zip ds, Describes x.1 x.2

end Xdvdfs.Spec

namespace Xdvdfs.Props

open Spec

namespace InfoExact

theorem print_low {d : DirEnt} (h : LowLinks d) (checked : Bool) :
    ∃ i, printDirent checked d = .ok i ∧ Describes i d := by
  obtain ⟨h1, h2⟩ := h
  have a := (C59_link_partial d.node.left).1 (by omega) checked
  have b := (C59_link_partial d.node.right).1 (by omega) checked
  unfold printDirent
  simp only [a, b, Res.ok_bind, Res.pure_eq]
  exact ⟨_, rfl, rfl, rfl, rfl, rfl, rfl, rfl, rfl⟩

theorem print_high {d : DirEnt} (h : ¬ LowLinks d) :
    printDirent true d = .panic ∧ ∃ i, printDirent false d = .ok i ∧ ¬ Describes i d := by
  unfold LowLinks at h
  by_cases h1 : d.node.left.toNat < 2 ^ 14
  · have h2 : 2 ^ 14 ≤ d.node.right.toNat := by omega
    have a := (C59_link_partial d.node.left).1 h1
    obtain ⟨b, o, b1, b2⟩ := (C59_link_partial d.node.right).2 h2
    unfold printDirent
    simp only [a, b, b1, Res.ok_bind, Res.pure_eq]
    exact ⟨rfl, _, rfl, fun hd => b2 hd.2.2.2.1⟩
  · obtain ⟨a, o, a1, a2⟩ := (C59_link_partial d.node.left).2 (by omega)
    obtain ⟨r, hr⟩ : ∃ r, infoLink false d.node.right = .ok r := by
      unfold infoLink
      split
      · exact ⟨_, rfl⟩
      · split
        · exact ⟨_, rfl⟩
        · exact ⟨_, rfl⟩
    unfold printDirent
    simp only [a, a1, hr, Res.ok_bind, Res.pure_eq]
    exact ⟨rfl, _, rfl, fun hd => a2 hd.2.2.1⟩

theorem prints_low (checked : Bool) : ∀ {ds : List DirEnt}, (∀ d ∈ ds, LowLinks d) →
    ∃ infos, printDirents checked ds = .ok infos ∧ AllTrue infos ds := by
  intro ds
  induction ds with
  | nil => intro _; exact ⟨[], rfl, rfl, by simp⟩
  | cons d ds ih =>
    intro h
    obtain ⟨i, h1, h2⟩ := print_low (h d (by simp)) checked
    obtain ⟨is, h3, h4, h5⟩ := ih fun x hx => h x (by simp [hx])
    refine ⟨i :: is, by simp only [printDirents, h1, h3, Res.ok_bind, Res.pure_eq], by simp [h4], ?_⟩
    intro x hx
    rw [List.zip_cons_cons, List.mem_cons] at hx
    rcases hx with rfl | hx
    · exact h2
    · exact h5 x hx

theorem prints_high : ∀ {ds : List DirEnt}, ¬ (∀ d ∈ ds, LowLinks d) → printDirents true ds = .panic := by
  intro ds
  induction ds with
  | nil => intro h; exact absurd (by simp) h
  | cons d ds ih =>
    intro h
    by_cases hd : LowLinks d
    · obtain ⟨i, h1, _⟩ := print_low hd true
      have : ¬ (∀ d ∈ ds, LowLinks d) := fun hc => h (by
        intro x hx
        rcases List.mem_cons.1 hx with rfl | hx
        · exact hd
        · exact hc x hx)
      simp only [printDirents, h1, ih this, Res.ok_bind, Res.panic_bind]
    · simp only [printDirents, (print_high hd).1, Res.panic_bind]

theorem prints_unchecked : ∀ (ds : List DirEnt), ∃ infos, printDirents false ds = .ok infos ∧
    infos.length = ds.length ∧ (AllTrue infos ds → ∀ d ∈ ds, LowLinks d) := by
  intro ds
  induction ds with
  | nil => exact ⟨[], rfl, rfl, by simp⟩
  | cons d ds ih =>
    obtain ⟨is, h3, h4, h5⟩ := ih
    have hd : ∃ i, printDirent false d = .ok i ∧ (Describes i d → LowLinks d) := by
      by_cases hl : LowLinks d
      · obtain ⟨i, h1, _⟩ := print_low hl false
        exact ⟨i, h1, fun _ => hl⟩
      · obtain ⟨i, h1, h2⟩ := (print_high hl).2
        exact ⟨i, h1, fun hc => absurd hc h2⟩
    obtain ⟨i, h1, h2⟩ := hd
    refine ⟨i :: is, by simp only [printDirents, h1, h3, Res.ok_bind, Res.pure_eq], by simp [h4], ?_⟩
    rintro ⟨_, ht⟩ x hx
    rcases List.mem_cons.1 hx with rfl | hx
    · exact h2 (ht (i, x) (by simp))
    · exact h5 ⟨h4, fun y hy => ht y (by rw [List.zip_cons_cons]; exact List.mem_cons_of_mem _ hy)⟩ x hx

/-- The command prints exactly the entries asked for, one after the other. -/
theorem info_prints {compressed : Bool} {dev dev' : Dev} {vol : VolDesc} (ho : openVolume compressed dev = .ok (dev', vol))
    {path : Str} {fuel : Nat} {ds : List DirEnt} (ha : AskedFor dev' vol.root path fuel ds) (checked : Bool) :
    cmdInfo checked compressed dev (some path) fuel = (printDirents checked ds).bind fun l => .ok (.entries l) := by
  unfold cmdInfo
  rw [ho]
  simp only [Res.ok_bind]
  rcases ha with ⟨hp, hw⟩ | ⟨hp, d, hw, hc⟩
  · rw [if_pos hp]
    simp only [printSubdir, hw, Res.ok_bind]
    rfl
  · rw [if_neg hp]
    simp only [hw, Res.ok_bind]
    rcases hc with ⟨hd, rfl⟩ | ⟨hd, l, hl, rfl⟩
    · simp only [DiskData.direntTable, hd, printDirents]
      cases printDirent checked d <;> rfl
    · simp only [DiskData.direntTable, hd, if_true, printSubdir, hl, printDirents, Res.ok_bind]
      cases printDirent checked d with
      | ok i => cases printDirents checked l <;> rfl
      | err _ => rfl
      | panic => rfl
      | hang => rfl

end InfoExact

open InfoExact

/-- C59 for images of any origin, exactly.  If the entries asked for can be found, `info` prints each of them truly, in
order, if all their children are stored in the first 64 KiB of their tables.  Otherwise a tool with overflow checks
panics; one without prints as many entries, but not all of them truly. -/
theorem C59_info_exactly {compressed : Bool} {dev dev' : Dev} {vol : VolDesc}
    (ho : openVolume compressed dev = .ok (dev', vol)) {path : Str} {fuel : Nat} {ds : List DirEnt}
    (ha : AskedFor dev' vol.root path fuel ds) :
    ((∀ d ∈ ds, LowLinks d) → ∀ checked, ∃ infos,
      cmdInfo checked compressed dev (some path) fuel = .ok (.entries infos) ∧ AllTrue infos ds) ∧
    (¬ (∀ d ∈ ds, LowLinks d) → cmdInfo true compressed dev (some path) fuel = .panic ∧ ∃ infos,
      cmdInfo false compressed dev (some path) fuel = .ok (.entries infos) ∧ infos.length = ds.length ∧
        ¬ AllTrue infos ds) := by
  constructor
  · intro h checked
    obtain ⟨infos, h1, h2⟩ := prints_low checked h
    exact ⟨infos, by rw [info_prints ho ha, h1]; rfl, h2⟩
  · intro h
    obtain ⟨infos, h1, h2, h3⟩ := prints_unchecked ds
    exact ⟨by rw [info_prints ho ha, prints_high h]; rfl, infos, by rw [info_prints ho ha, h1]; rfl, h2,
      fun hc => h (h3 hc)⟩

/-- The hypotheses of `C59_info_exactly` are met by an image with one file, whose entry has no children. -/
theorem info_one_file : openVolume true (fileDev (attrImage 5 0x21)) = .ok (fileDev (attrImage 5 0x21), attrVol 5) ∧
    AskedFor (fileDev (attrImage 5 0x21)) (attrVol 5).root ['/'] 2 [{ attrEntry 0x21 with offset := 67584 }] := by
  refine ⟨?_, .inl ⟨rfl, ?_⟩⟩
  · unfold openVolume openImage
    rw [if_pos rfl]
    simp only [Res.ok_bind, attr_ro_volume, Res.pure_eq]
  · rw [attrImage, handDev_eq]
    decide +kernel

example : ∃ infos, cmdInfo true true (fileDev (attrImage 5 0x21)) (some ['/']) 2 = .ok (.entries infos) ∧
    infos.length = 1 := by
  obtain ⟨infos, h1, h2, _⟩ := (C59_info_exactly info_one_file.1 info_one_file.2).1 (by
    intro d hd
    rw [List.mem_singleton] at hd
    subst hd
    unfold LowLinks
    decide) true
  exact ⟨infos, h1, h2⟩

/-- The entry of an empty file `a` with 0xffff for its left child, which some tools write where there is none. -/
def otherEntry : DirEnt := ⟨⟨0xffff, 0, ⟨⟨34, 0⟩, 0x20, 1⟩⟩, [0x61], 67584⟩

/-- An image with this entry. -/
def otherImage : Bytes := List.replicate 65536 0 ++
  ((attrVol 0).ser ++ ((otherEntry.node.ser ++ [0x61]) ++ List.replicate 2033 0xff))

set_option maxRecDepth 20000 in
theorem other_volume : readVolume (fileDev otherImage) = .ok (attrVol 0) := by
  rw [otherImage, handDev_eq]; decide +kernel

set_option maxRecDepth 20000 in
theorem other_walk : walkDirentTree (fileDev otherImage) ⟨33, 2048⟩ 2 = .ok [otherEntry] := by
  rw [otherImage, handDev_eq]; decide +kernel

/-- The second part of `C59_info_exactly` applies to an image with 0xffff for a child that does not exist: `ls` lists it,
`info` panics. -/
example : cmdLs true (fileDev otherImage) ['/'] false 2 = .ok [['a']] ∧
    cmdInfo true true (fileDev otherImage) (some ['/']) 2 = .panic := by
  have ho : openVolume true (fileDev otherImage) = .ok (fileDev otherImage, attrVol 0) := by
    unfold openVolume openImage
    rw [if_pos rfl]
    simp only [Res.ok_bind, other_volume, Res.pure_eq]
  have hw : walkDirentTree (fileDev otherImage) (attrVol 0).root 2 = .ok [otherEntry] := other_walk
  constructor
  · unfold cmdLs
    rw [ho]
    simp only [Res.ok_bind, if_true, Res.pure_eq, hw]
    decide
  · refine ((C59_info_exactly ho (.inl ⟨rfl, hw⟩)).2 ?_).1
    intro hc
    have := (hc otherEntry (by simp)).1
    revert this
    decide

/-- C131 for repacking images of any origin, exactly.  The time stamp is kept if it is 0 and only then.  Every entry is
found in the new image under its path, in any letter case, with its name and as what it was, a file or a directory; its
attributes are kept if they are 0x10 for a directory or 0x20 for a file, and only then. -/
theorem C131_repack_exactly {dev : Dev} {fs : ImgFs} (hn : ImgFs.new dev = .ok (some fs))
    {copier : Copier} (hcop : CopiesFrom dev copier) {faults : Faults} {wf fuel : Nat} {img0 : Bytes}
    {s' : PackState ImgFile} {content : Path → Bytes} (hcont : ImgContent dev wf fs.vol.root content)
    (h : repackImage copier faults wf fuel fs ⟨⟨img0, []⟩, []⟩ = (.ok (), s')) :
    ∃ vol : VolDesc, readVolume (fileDev s'.dev.img) = .ok vol ∧
      (vol.filetime = fs.vol.filetime ↔ fs.vol.filetime = 0) ∧
      ∀ p ds d, DirOf (imgReadDir dev wf fs.vol.root) p →
        imgDirents dev wf fs.vol.root p = .ok ds → d ∈ ds →
        ∀ q lf, SamePath (p ++ [d.nameStr]) q → PlainPath q →
          SearchBudget (imgReadDir dev wf fs.vol.root) lf →
          ∃ d', walkPath (fileDev s'.dev.img) vol.root (slashPath q) lf = .ok d' ∧ d'.nameStr = d.nameStr ∧
            d'.node.dirent.isDirectory = d.node.dirent.isDirectory ∧
            (d'.node.dirent.attrs = d.node.dirent.attrs ↔
              d.node.dirent.attrs = if d.node.dirent.isDirectory then 0x10 else 0x20) := by
  obtain ⟨src, M, Loc, l0, hrd, hP⟩ := repack_packed hn hcop hcont h
  refine ⟨_, hP.volume, ⟨fun h => h.symm, fun h => h.symm⟩, ?_⟩
  intro p ds d hp hds hd q lf hs hq hb
  have he : EntryIn src.readDir p (fileEntryOf d) := by
    rw [hrd]
    refine ⟨hp, ds.map fileEntryOf, ?_, List.mem_map_of_mem hd⟩
    simp only [imgReadDir, hds, Res.ok_bind, Res.pure_eq]
  obtain ⟨d', l', g1, g2, g3, g4, _⟩ := hP.image.entry_lookup hP.distinct hP.root hP.rootDir he
    (q := q) (fuel := lf) hs hq (by rw [hrd]; exact hb)
  refine ⟨d', g1, g2, g4, ?_⟩
  rw [hP.attrs (by rw [hrd]; exact hb) g1, g4]
  exact ⟨fun h => h.symm, fun h => h.symm⟩

/-- The hypotheses of `C131_repack_exactly` are met by an image with the time stamp 5 and a read-only file. -/
example : ∃ (fs : ImgFs) (s' : PackState ImgFile), ImgFs.new (fileDev (attrImage 5 0x21)) = .ok (some fs) ∧
    repackImage (defaultCopier (fileDev (attrImage 5 0x21))) (fun _ => none) 2 1 fs ⟨⟨[], []⟩, []⟩ = (.ok (), s') ∧
    ImgContent (fileDev (attrImage 5 0x21)) 2 fs.vol.root (fun _ => [1, 2, 3]) ∧
    CopiesFrom (fileDev (attrImage 5 0x21)) (defaultCopier (fileDev (attrImage 5 0x21))) := by
  have hrun := attr_repacks attr_ro_scan (by decide) attr_ro_read ⟨⟨[], []⟩, []⟩
  rcases hr : repackImage (defaultCopier (fileDev (attrImage 5 0x21))) (fun _ => none) 2 1
    ⟨fileDev (attrImage 5 0x21), attrVol 5, Trie.empty⟩ ⟨⟨[], []⟩, []⟩ with ⟨res, s'⟩
  rw [hr] at hrun
  simp only at hrun
  subst hrun
  exact ⟨_, s', attr_fs attr_ro_volume, hr, attr_content attr_ro_scan (by decide) attr_ro_read,
    defaultCopier_copies (fileDev_parts _)⟩

end Xdvdfs.Props
