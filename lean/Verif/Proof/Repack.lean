import Verif.Proof.ImgFs
import Verif.Props.Pack

/-!
# Scanning a packed image gives the packed tree
-/

namespace Xdvdfs

open Spec Trie Props

variable {rd rd' : ReadDir} {content : Path → Bytes} {dev : Dev} {M : PathMap TabWriter} {Loc : Path → Listing → Prop}

/-- Name, kind and (for files) size. -/
def sig (e : FileEntry) : Str × Bool × Option Nat := (e.name, e.isDir, if e.isDir then none else some e.len)

/-- Two sources have the same directories with, up to order, the same entries. -/
structure SameTree (rd rd' : ReadDir) : Prop where
  dirs : ∀ p, DirOf rd p ↔ DirOf rd' p
  lists : ∀ p l, DirOf rd p → rd p = .ok l → ∃ l', rd' p = .ok l' ∧ (l.map sig).Perm (l'.map sig)

theorem sig_mem {l l' : List FileEntry} (h : (l.map sig).Perm (l'.map sig)) {e : FileEntry} (he : e ∈ l) :
    ∃ e' ∈ l', e'.name = e.name ∧ e'.isDir = e.isDir ∧ (e.isDir = false → e'.len = e.len) := by
  have := h.mem_iff.1 (List.mem_map_of_mem he)
  obtain ⟨e', he', hs⟩ := List.mem_map.1 this
  simp only [sig, Prod.mk.injEq] at hs
  obtain ⟨h1, h2, h3⟩ := hs
  refine ⟨e', he', h1, h2, fun hd => ?_⟩
  rw [h2, hd] at h3
  simpa using h3

theorem Img.scan_dir (h : Img rd content dev M Loc) {p : Path} {l : Listing} (hl : Loc p l)
    (hd : l.isDir = true) : ∃ lst ds, DirOf rd p ∧ rd p = .ok lst ∧
      (∀ fuel, lst.length < fuel → scanAll dev (regionOf l) fuel = .ok ds) ∧
      (∀ d ∈ ds, Loc (p ++ [d.nameStr]) (summary d)) ∧
      ((ds.map fileEntryOf).map sig).Perm (lst.map sig) := by
  obtain ⟨hdir, lst, w, r, n, n', h1, h2, h3, h4, h5, h6⟩ := h.dirs p l hl hd
  obtain ⟨ds, g1, g2, g3, g4⟩ := C24_listing h3 h4 h5
  obtain ⟨ds', ss, k1, k2, k3, k4⟩ := C25_scan_agrees h3 h4 h5
  have : ds' = ds := by
    have a := g1 ((lst.map (itemOf M p)).length + 1) (Nat.lt_succ_self _)
    have b := k1 ((lst.map (itemOf M p)).length + 1) (Nat.lt_succ_self _)
    rw [a] at b; cases b; rfl
  subst this
  have hattr : ∀ it : Item, (it.attrs &&& 0x10 != 0) = it.isDir := by
    intro it; unfold Item.attrs; cases it.isDir <;> decide
  refine ⟨lst, ss, hdir, h1, fun fuel hf => k2 fuel (by simpa using hf), ?_, ?_⟩
  · intro d hd
    have : summary d ∈ r.fileListing := by rw [← k4]; exact List.mem_map_of_mem hd
    exact h6 _ this
  · let key : Str × Nat × UInt8 → Str × Bool × Option Nat := fun x =>
      (x.1, x.2.2 &&& 0x10 != 0, if (x.2.2 &&& 0x10 != 0) = true then none else some x.2.1)
    let pre : DiskNode × Bytes → Str × Nat × UInt8 := fun x =>
      (decodeName x.2, x.1.dirent.data.size.toNat, x.1.dirent.attrs)
    have a1 := (k3.map pre).map key
    have a2 := g3.map key
    rw [List.map_map, List.map_map, List.map_map, List.map_map] at a1
    rw [List.map_map, List.map_map, List.map_map] at a2
    rw [List.map_map]
    refine (List.Perm.of_eq ?_).trans (a1.trans ((List.Perm.of_eq ?_).trans (a2.trans (List.Perm.of_eq ?_))))
    · rfl
    · rfl
    · apply List.map_congr_left
      intro e he
      simp only [Function.comp, key, sig, hattr]
      cases hd' : e.isDir with
      | true => simp [itemOf, hd']
      | false => rw [itemOf_stored (h2 e he) hd']; simp [itemOf, hd']

/-- Enough fuel for scanning each directory. -/
def ScanFuel (rd : ReadDir) (wf : Nat) : Prop := ∀ p l, DirOf rd p → rd p = .ok l → l.length < wf

theorem Img.table_at (h : Img rd content dev M Loc) (hdist : AllDistinct rd) {l0 : Listing}
    (h0 : Loc [] l0) (hd0 : l0.isDir = true) {wf : Nat} (hwf : ScanFuel rd wf) {p : Path} (hp : DirOf rd p) :
    ∃ l, Loc p l ∧ l.isDir = true ∧ imgTable dev wf (regionOf l0) p = .ok (regionOf l) := by
  induction hp with
  | root => exact ⟨l0, h0, hd0, rfl⟩
  | @sub p lst e h1 h2 h3 h4 ih =>
    obtain ⟨l, k1, k2, k3⟩ := ih
    obtain ⟨lst', ds, _, g2, g3, g4, g5⟩ := h.scan_dir k1 k2
    rw [h2] at g2; cases g2
    have hds : imgDirents dev wf (regionOf l0) p = .ok ds := by
      simp [imgDirents, k3, g3 wf (hwf p lst h1 h2)]
    obtain ⟨e', he', hn, hd', _⟩ := sig_mem g5.symm h3
    obtain ⟨d1, hd1, rfl⟩ := List.mem_map.1 he'
    have hn' : d1.nameStr = e.name := hn
    obtain ⟨d, hd⟩ := Option.isSome_iff_exists.1 (firstNamed_isSome hd1)
    rw [hn'] at hd
    obtain ⟨m1, m2⟩ := firstNamed_some hd
    obtain ⟨e2, he2, hn2, hd2, _⟩ := sig_mem g5 (List.mem_map_of_mem (f := fileEntryOf) m1)
    have : e2 = e := distinct_unique (hdist p lst h1 h2) he2 h3 (by
      rw [hn2]; show SameName d.nameStr e.name; rw [m2]; rfl)
    subst this
    have hdir : d.node.dirent.isDirectory = true := by
      have : (fileEntryOf d).isDir = true := by rw [← hd2]; exact h4
      exact this
    refine ⟨summary d, ?_, ?_, ?_⟩
    · have := g4 d m1
      rwa [m2] at this
    · exact hdir
    · rw [imgTable_snoc, hds]
      simp only [Res.ok_bind, hd, Res.ofOption_some, DiskData.direntTable, hdir, if_true, regionOf_summary]

theorem Img.sameTree (h : Img rd content dev M Loc) (hdist : AllDistinct rd) {l0 : Listing}
    (h0 : Loc [] l0) (hd0 : l0.isDir = true) {wf : Nat} (hwf : ScanFuel rd wf) (hL : Listable rd) :
    SameTree rd (imgReadDir dev wf (regionOf l0)) ∧
    ∀ p, DirOf rd p → ∃ lst ds, rd p = .ok lst ∧ imgDirents dev wf (regionOf l0) p = .ok ds ∧
      ((ds.map fileEntryOf).map sig).Perm (lst.map sig) ∧ ∀ d ∈ ds, Loc (p ++ [d.nameStr]) (summary d) := by
  have key : ∀ p, DirOf rd p → ∃ lst ds, rd p = .ok lst ∧ imgDirents dev wf (regionOf l0) p = .ok ds ∧
      ((ds.map fileEntryOf).map sig).Perm (lst.map sig) ∧ ∀ d ∈ ds, Loc (p ++ [d.nameStr]) (summary d) := by
    intro p hp
    obtain ⟨l, k1, k2, k3⟩ := h.table_at hdist h0 hd0 hwf hp
    obtain ⟨lst, ds, _, g2, g3, g4, g5⟩ := h.scan_dir k1 k2
    exact ⟨lst, ds, g2, by simp [imgDirents, k3, g3 wf (hwf p lst hp g2)], g5, g4⟩
  refine ⟨⟨fun p => ⟨fun hp => ?_, fun hp => ?_⟩, ?_⟩, key⟩
  · induction hp with
    | root => exact .root
    | @sub p l e h1 h2 h3 h4 ih =>
      obtain ⟨lst, ds, k1, k2, k3, _⟩ := key p h1
      rw [h2] at k1; cases k1
      obtain ⟨e', he', hn, hd, _⟩ := sig_mem k3.symm h3
      rw [← hn]
      exact .sub ih (by simp [imgReadDir, k2]) he' (by rw [hd, h4])
  · induction hp with
    | root => exact .root
    | @sub p l e h1 h2 h3 h4 ih =>
      obtain ⟨lst, ds, k1, k2, k3, _⟩ := key p ih
      simp only [imgReadDir, k2, Res.ok_bind, Res.pure_eq, Res.ok.injEq] at h2
      subst h2
      obtain ⟨e', he', hn, hd, _⟩ := sig_mem k3 h3
      rw [← hn]
      exact .sub ih k1 he' (by rw [hd, h4])
  · intro p l hp hl
    obtain ⟨lst, ds, k1, k2, k3, _⟩ := key p hp
    rw [hl] at k1; cases k1
    exact ⟨_, by simp [imgReadDir, k2], k3.symm⟩

/-! ## The same tree reads the same -/

theorem SameTree.symm (h : SameTree rd rd') (hL : Listable rd) : SameTree rd' rd := by
  refine ⟨fun p => (h.dirs p).symm, fun p l hp hl => ?_⟩
  obtain ⟨l1, h1⟩ := hL p ((h.dirs p).2 hp)
  obtain ⟨l', h2, h3⟩ := h.lists p l1 ((h.dirs p).2 hp) h1
  rw [hl] at h2; cases h2
  exact ⟨l1, h1, h3.symm⟩

theorem SameTree.entry (h : SameTree rd rd') {p : Path} {e : FileEntry} (he : EntryIn rd p e) :
    ∃ e', EntryIn rd' p e' ∧ e'.name = e.name ∧ e'.isDir = e.isDir ∧ (e.isDir = false → e'.len = e.len) := by
  obtain ⟨hp, l, hl, hm⟩ := he
  obtain ⟨l', h1, h2⟩ := h.lists p l hp hl
  obtain ⟨e', k1, k2⟩ := sig_mem h2 hm
  exact ⟨e', ⟨(h.dirs p).1 hp, l', h1, k1⟩, k2⟩

theorem SameTree.budget (h : SameTree rd rd') (hL : Listable rd) {fuel : Nat} (hb : SearchBudget rd fuel) :
    SearchBudget rd' fuel := by
  intro p l hp hl
  obtain ⟨l', h1, h2⟩ := (h.symm hL).lists p l hp hl
  have := h2.length_eq
  simp only [List.length_map] at this
  rw [this]
  exact hb p l' ((h.dirs p).2 hp) h1

theorem SameTree.distinct (h : SameTree rd rd') (hL : Listable rd) (hd : AllDistinct rd) : AllDistinct rd' := by
  intro p l hp hl
  obtain ⟨l', h1, h2⟩ := (h.symm hL).lists p l hp hl
  have := hd p l' ((h.dirs p).2 hp) h1
  have hn := h2.map Prod.fst
  rw [List.map_map, List.map_map] at hn
  unfold DistinctNames at this ⊢
  refine (List.Perm.pairwise_iff ?_ (show (l.map (·.name)).Perm (l'.map (·.name)) from hn)).2 this
  intro a b hab hba
  exact hab hba.symm

theorem SameTree.keys (h : SameTree rd rd') (hL : Listable rd) (hd : AllDistinct rd)
    {all all' : List (Path × FileEntry)} (hn : all.Nodup) (hm : ∀ p e, (p, e) ∈ all ↔ EntryIn rd p e)
    (hn' : all'.Nodup) (hm' : ∀ p e, (p, e) ∈ all' ↔ EntryIn rd' p e) :
    (all.map (fun x => (x.1, sig x.2))).Perm (all'.map (fun x => (x.1, sig x.2))) := by
  have nod : ∀ {rd : ReadDir} {all : List (Path × FileEntry)}, AllDistinct rd → all.Nodup →
      (∀ p e, (p, e) ∈ all ↔ EntryIn rd p e) → (all.map (fun x => (x.1, sig x.2))).Nodup := by
    intro rd all hd hn hm
    rw [List.nodup_iff_pairwise_ne, List.pairwise_map]
    rw [List.nodup_iff_pairwise_ne] at hn
    refine List.Pairwise.imp_of_mem ?_ hn
    intro a b ha hb hab he
    simp only [Prod.mk.injEq, sig] at he
    obtain ⟨e1, e2, _⟩ := he
    obtain ⟨p, l, hl, hm1⟩ := (hm a.1 a.2).1 ha
    obtain ⟨_, l2, hl2, hm2⟩ := (hm b.1 b.2).1 hb
    rw [← e1, hl] at hl2; cases hl2
    have := distinct_unique (hd a.1 l p hl) hm1 hm2 (by rw [e2]; rfl)
    exact hab (Prod.ext e1 this)
  rw [List.perm_ext_iff_of_nodup (nod hd hn hm) (nod (h.distinct hL hd) hn' hm')]
  have one : ∀ {rd rd' : ReadDir} {all all' : List (Path × FileEntry)}, SameTree rd rd' →
      (∀ p e, (p, e) ∈ all ↔ EntryIn rd p e) → (∀ p e, (p, e) ∈ all' ↔ EntryIn rd' p e) →
      ∀ a, a ∈ all.map (fun x => (x.1, sig x.2)) → a ∈ all'.map (fun x => (x.1, sig x.2)) := by
    intro rd rd' all all' h hm hm' a ha
    obtain ⟨⟨p, e⟩, hx, rfl⟩ := List.mem_map.1 ha
    obtain ⟨e', k1, k2, k3, k4⟩ := h.entry ((hm p e).1 hx)
    refine List.mem_map.2 ⟨(p, e'), (hm' p e').2 k1, ?_⟩
    simp only [sig, k2, k3]
    cases hd : e.isDir with
    | true => rfl
    | false => rw [k4 hd]
  exact fun a => ⟨one h hm hm' a, one (h.symm hL) hm' hm a⟩

theorem HoldsTree.transfer (h : SameTree rd rd') (hL : Listable rd) (hd : AllDistinct rd)
    {all : List (Path × FileEntry)} (hn : all.Nodup) (hm : ∀ p e, (p, e) ∈ all ↔ EntryIn rd p e)
    (hH : HoldsTree dev rd' content) : HoldsTree dev rd content := by
  obtain ⟨vol, h1, h2, h3, h4, h5⟩ := hH
  refine ⟨vol, h1, ?_, ?_, ?_, ?_⟩
  · intro p e q fuel he hk hs hp hf
    obtain ⟨e', k1, k2, k3, k4⟩ := h.entry he
    have := h2 p e' q fuel k1 (by rw [k3, hk]) (by rw [k2]; exact hs) hp (h.budget hL hf)
    rwa [k2] at this
  · intro p e q fuel he hk hs hp hf
    obtain ⟨e', k1, k2, k3, k4⟩ := h.entry he
    have := h3 p e' q fuel k1 (by rw [k3, hk]) (by rw [k2]; exact hs) hp (h.budget hL hf)
    rwa [k2] at this
  · intro q fuel hq hp hno hf
    refine h4 q fuel hq hp (fun p e he => ?_) (h.budget hL hf)
    obtain ⟨e', k1, k2, _⟩ := (h.symm hL).entry he
    rw [← k2]; exact hno p e' k1
  · obtain ⟨all', n', m', listed, f1, f2⟩ := h5
    have hk := h.keys hL hd hn hm n' m'
    have hlen := hk.length_eq
    simp only [List.length_map] at hlen
    refine ⟨all, hn, hm, listed, fun fuel hf => f1 fuel (by rw [← hlen]; exact hf), f2.trans ?_⟩
    have := (hk.symm.map (fun x : Path × Str × Bool × Option Nat =>
      (slashPath x.1, x.2.1, x.2.2.1, x.2.2.2.map (fun n => (n, Res.ok (content (x.1 ++ [x.2.1])))))))
    rw [List.map_map, List.map_map] at this
    have he : ∀ x : Path × FileEntry, entryKey content x = ((fun x : Path × Str × Bool × Option Nat =>
      (slashPath x.1, x.2.1, x.2.2.1, x.2.2.2.map (fun n => (n, Res.ok (content (x.1 ++ [x.2.1])))))) ∘
        fun x : Path × FileEntry => (x.1, sig x.2)) x := by
      intro x
      simp only [entryKey, Function.comp, sig]
      cases x.2.isDir <;> rfl
    rw [List.map_congr_left (fun x _ => he x), List.map_congr_left (fun x _ => he x)]
    exact this

/-! ## The packed image as a source -/

/-- What a successful pack leaves, seen as the source of a further pack. -/
structure Packed (fs : SourceFs) (content : Path → Bytes) (img : Bytes) (M : PathMap TabWriter)
    (Loc : Path → Listing → Prop) (l0 : Listing) : Prop where
  image : Img fs.readDir content (fileDev img) M Loc
  distinct : AllDistinct fs.readDir
  root : Loc [] l0
  rootDir : l0.isDir = true
  volume : readVolume (fileDev img) = .ok (VolDesc.new (regionOf l0))
  listable : Listable fs.readDir
  finite : ∃ Dp : List Path, Dp.Nodup ∧ ∀ q, q ∈ Dp ↔ DirOf fs.readDir q

theorem pack_packed {fs : SourceFs} {faults : Faults} {fuel : Nat} {img0 : Bytes} {s' : PackState ImgFile}
    {content : Path → Bytes} (hb : Bounded fs) (hf : FaithfulTo fs content)
    (h : createImage (fileEnv fs faults) fuel ⟨⟨img0, []⟩, []⟩ = (.ok (), s')) :
    ∃ M Loc l0, Packed fs content s'.dev.img M Loc l0 := by
  obtain ⟨h1, h2⟩ := pack_end fs faults fuel img0 h
  cases h2 with
  | early h2 _ => exact absurd rfl h2
  | data _ h2 _ => exact absurd rfl h2
  | desc _ h2 _ _ _ => exact absurd rfl h2
  | @pad D M rootW rootSize next recs n' P hS hD hok htr hP _ =>
    have hat : ∀ w ∈ (planOps fs.pathToString D recs).flatMap (opWrites fs) ++
      [(32 * 2048, rootDesc 33 rootSize)], At s'.dev.img w.1 w.2 := by
      rw [h1, htr]
      exact pad_at hS hb (torn_pad hP)
    refine ⟨M, _, rootListing rootSize, hS.img hf hok (im := s'.dev.img) (fun w hw => hat w (by simp [hw])),
      hS.allDistinct, by simp [placedAll], rfl, ?_, ?_, ⟨_, (tables_ok hS.walked hS.tables).2.2.1,
        fun q => hS.walked.mem_iff q⟩⟩
    · refine readVolume_holds ?_
      have := (hat (32 * 2048, rootDesc 33 rootSize) (by simp)).holds
      rw [Nat.mul_comm]
      exact this
    · intro p hp
      obtain ⟨x, hx, rfl⟩ := List.mem_map.1 ((hS.walked.mem_iff p).2 hp)
      exact ⟨x.2, hS.walked.readDir hx⟩

theorem Packed.content_eq {fs : SourceFs} {img : Bytes} {l0 : Listing}
    (h : Packed fs content img M Loc l0) {wf : Nat} (hwf : ScanFuel fs.readDir wf) :
    ImgContent (fileDev img) wf (regionOf l0) content := by
  obtain ⟨hs, hk⟩ := h.image.sameTree h.distinct h.root h.rootDir hwf h.listable
  intro p ds d hp hds hd hf
  obtain ⟨lst, ds', k1, k2, k3, k4⟩ := hk p ((hs.dirs p).2 hp)
  rw [hds] at k2; cases k2
  have hl := k4 d hd
  obtain ⟨g1, g2⟩ := h.image.files _ _ hl hf
  obtain ⟨s1, s2⟩ := h.image.small _ _ hl
  exact readDataAll_holds (regionOf_summary d).symm s1 s2 g1 g2

/-! ## Repacking a representable tree succeeds -/

theorem sum_map_perm {α : Type} {f : α → Nat} {l l' : List α} (h : l.Perm l') : (l.map f).sum = (l'.map f).sum :=
  (h.map f).sum_nat

theorem sig_dirSectors {l l' : List FileEntry} (h : (l.map sig).Perm (l'.map sig)) : dirSectors l = dirSectors l' := by
  have e : ∀ l : List FileEntry, ((l.filter (fun e => !e.isDir)).map (fun e => sectorsFor e.len)) =
      (l.map sig).filterMap (fun x => x.2.2.map sectorsFor) := by
    intro l
    induction l with
    | nil => rfl
    | cons a l ih =>
      rw [List.map_cons, List.filterMap_cons, List.filter_cons]
      cases ha : a.isDir with
      | true => simp [sig, ha, ih]
      | false => simp [sig, ha, ih]
  have hl := h.length_eq
  simp only [List.length_map] at hl
  unfold dirSectors
  rw [e, e, hl, (h.filterMap _).sum_nat]

theorem sig_storable {l l' : List FileEntry} (h : (l.map sig).Perm (l'.map sig)) (hs : StorableListing l) :
    StorableListing l' := by
  obtain ⟨h1, h2⟩ := hs
  have hn := h.map Prod.fst
  rw [List.map_map, List.map_map] at hn
  refine ⟨?_, ?_⟩
  · unfold DistinctNames at h1 ⊢
    refine (List.Perm.pairwise_iff ?_ (show (l.map FileEntry.name).Perm (l'.map FileEntry.name) from hn)).1 h1
    intro a b hab hba
    exact hab hba.symm
  · intro e he
    obtain ⟨e', k1, k2, k3, k4⟩ := sig_mem h.symm he
    obtain ⟨g1, g2, g3⟩ := h2 e' k1
    rw [k2] at g1 g2
    refine ⟨g1, g2, fun hd => ?_⟩
    rw [← k4 hd]; exact g3 (by rw [k3, hd])

theorem sig_few {l l' : List FileEntry} (h : (l.map sig).Perm (l'.map sig)) (hs : FewEntries l) : FewEntries l' := by
  have hn := h.map Prod.fst
  rw [List.map_map, List.map_map] at hn
  have e : ∀ l : List FileEntry, l.map (fun e => (14 + e.name.length + 3) / 4 * 4) =
      (l.map (Prod.fst ∘ sig)).map (fun n => (14 + n.length + 3) / 4 * 4) := by
    intro l; rw [List.map_map]; rfl
  unfold FewEntries at hs ⊢
  rw [e] at hs ⊢
  rwa [← sum_map_perm hn]

theorem SameTree.tree (h : SameTree rd rd') (hL : Listable rd) {tree : List (Path × List FileEntry)}
    (ht : TreeOf rd tree) : ∃ tree' : List (Path × List FileEntry), TreeOf rd' tree' ∧
      tree'.length = tree.length ∧ (tree'.map (fun x => dirSectors x.2)) = tree.map (fun x => dirSectors x.2) ∧
      ∀ x' ∈ tree', ∃ x ∈ tree, (x.2.map sig).Perm (x'.2.map sig) := by
  let f : Path × List FileEntry → Path × List FileEntry := fun x =>
    (x.1, match rd' x.1 with | .ok l => l | _ => [])
  have hf : ∀ x ∈ tree, ∃ l', rd' x.1 = .ok l' ∧ f x = (x.1, l') ∧ (x.2.map sig).Perm (l'.map sig) := by
    intro x hx
    obtain ⟨h1, h2⟩ := (ht.2 x.1 x.2).1 hx
    obtain ⟨l', k1, k2⟩ := h.lists x.1 x.2 h1 h2
    exact ⟨l', k1, by simp only [f, k1], k2⟩
  refine ⟨tree.map f, ⟨?_, ?_⟩, List.length_map _, ?_, ?_⟩
  · rw [List.map_map]
    exact ht.1
  · intro p l
    constructor
    · intro hm
      obtain ⟨x, hx, he⟩ := List.mem_map.1 hm
      obtain ⟨l', k1, k2, _⟩ := hf x hx
      rw [k2] at he
      cases he
      exact ⟨(h.dirs _).1 ((ht.2 x.1 x.2).1 hx).1, k1⟩
    · rintro ⟨h1, h2⟩
      obtain ⟨l1, k1⟩ := hL p ((h.dirs p).2 h1)
      have hx : (p, l1) ∈ tree := (ht.2 p l1).2 ⟨(h.dirs p).2 h1, k1⟩
      obtain ⟨l', k1, k2, _⟩ := hf _ hx
      simp only at k1
      rw [h2] at k1; cases k1
      exact List.mem_map.2 ⟨_, hx, k2⟩
  · rw [List.map_map]
    apply List.map_congr_left
    intro x hx
    obtain ⟨l', _, k2, k3⟩ := hf x hx
    simp only [Function.comp, k2]
    exact (sig_dirSectors k3).symm
  · intro x' hx'
    obtain ⟨x, hx, rfl⟩ := List.mem_map.1 hx'
    obtain ⟨l', _, k2, k3⟩ := hf x hx
    exact ⟨x, hx, by rw [k2]; exact k3⟩

/-- Every file of the source is copied. -/
theorem PlanShape.entry_copy {rd : ReadDir} {pts : Path → Str} {D M rootW rootSize next recs n'}
    (hS : PlanShape rd pts D M rootW rootSize next recs n' []) {q : Path} {e : FileEntry}
    (he : EntryIn rd q e) (hd : e.isDir = false) :
    ∃ out, Op.copy (q ++ [e.name]) out e.len ∈ planOps pts D recs := by
  obtain ⟨hq, l, hl, hm⟩ := he
  obtain ⟨x, hx, rfl⟩ := hS.recOf hq
  obtain ⟨lst, k1, k2, k3⟩ := (hS.recOK hx).built
  rw [hl] at k1; cases k1
  have hp := hS.listingNames hx hl
  have hmem : itemKey (itemOf M x.path e) ∈ x.r.fileListing.map listKey :=
    hp.mem_iff.2 (List.mem_map.2 ⟨e, hm, rfl⟩)
  obtain ⟨l', hl', hk⟩ := List.mem_map.1 hmem
  simp only [itemKey, listKey, Prod.mk.injEq] at hk
  obtain ⟨q1, q2, q3⟩ := hk
  have hlen := (k2 e hm).2 hd
  have q1' : l'.name = e.name := q1
  have q3' : l'.isDir = false := by rw [q3]; exact hd
  have q2' : l'.size = e.len := by
    rw [q2]
    simp only [Item.storedSize, itemOf, hd]
    simp only [Bool.false_eq_true, if_false]
    rw [UInt32.toNat_ofNat_of_lt' hlen]
  refine ⟨l'.sector * sectorSize, ?_⟩
  simp only [planOps, List.mem_append]
  refine .inr (.inr (List.mem_flatMap.2 ⟨x, hx, ?_⟩))
  simp only [opsRec, List.mem_cons]
  refine .inr (.inr (List.mem_flatMap.2 ⟨l', hl', ?_⟩))
  simp [opsEntry, q3', q1', q2', fromBase]

/-- A copier that succeeds on every range that can be read. -/
def CopierWorks (dev : Dev) (copier : Copier) : Prop :=
  ∀ off n b, dev.read off n = .ok b → ∃ k, (copier off n).2 = .ok k

/-- Repacking succeeds on an image with a representable tree whose files can be copied. -/
theorem repack_works_of {copier : Copier} {wf fuel : Nat} {fs : ImgFs}
    (hc : fs.cache = Trie.empty)
    (hcopy : ∀ p ds d off, DirOf (imgReadDir fs.dev wf fs.vol.root) p →
      imgDirents fs.dev wf fs.vol.root p = .ok ds → d ∈ ds → d.node.dirent.isDirectory = false →
      d.node.dirent.data.size.toNat ≠ 0 → d.node.dirent.data.offset 0 = .ok off →
      ∃ k, (copier off d.node.dirent.data.size.toNat).2 = .ok k)
    {tree : List (Path × List FileEntry)} (hL : Listable (imgReadDir fs.dev wf fs.vol.root))
    (ht : TreeOf (imgReadDir fs.dev wf fs.vol.root) tree) (hF : Fits tree)
    (hS : ∀ x ∈ tree, StorableListing x.2) (hK : ∀ x ∈ tree, TableWithin256K x.2)
    (hlat : ∀ x ∈ tree, ∀ e ∈ x.2, Latin1 e.name)
    (hf : tree.length ≤ fuel) (s : PackState ImgFile) :
    (repackImage copier (fun _ => none) wf fuel fs s).1 = .ok () := by
  have hP := plan_succeeds pathAsString hL ht hF hS hK hf
  have hinv : CacheInv fs.dev wf fs.vol.root fs.cache := by rw [hc]; exact cacheInv_empty _ _ _
  rcases hr : repackImage copier (fun _ => none) wf fuel fs s with ⟨res, s'⟩
  rcases repack_cases hc hr with ⟨fs', h1, h2, h3⟩ | ⟨_, _, h1⟩
  · have hrd : (pureSource wf copier fs').readDir = imgReadDir fs.dev wf fs.vol.root := by
      simp only [pureSource]; rw [h1.dev, h1.vol]
    have := createImage_works (env := fileEnv (pureSource wf copier fs') (fun _ => none)) (fuel := fuel)
      (fileEnv_works ?_) (by
        show (createP (pureSource wf copier fs').readDir pathAsString fuel).res = _
        rw [hrd]; exact hP) s
    · rw [h3] at this; exact this
    · intro p e he hd
      rw [hrd] at he
      obtain ⟨hp, l, hl, hel⟩ := he
      have hx : (p, l) ∈ tree := (ht.2 p l).2 ⟨hp, hl⟩
      obtain ⟨ds, k1, k2⟩ := Res.bind_eq_ok.1 hl
      simp only [Res.pure_eq, Res.ok.injEq] at k2
      subst k2
      obtain ⟨d, hdm, rfl⟩ := List.mem_map.1 hel
      have hfirst := firstNamed_distinct (hS _ hx).1 hdm
      have hget := copy_known h1.inv.1 (h2 p hp) (dirOf_latin1 h2 hp) k1 hfirst
      simp only [pureSource, ImgFs.copy, fileEntryOf, hget, Nat.min_self]
      by_cases hz : d.node.dirent.data.size.toNat = 0
      · rw [if_pos hz]; exact ⟨0, rfl⟩
      · rw [if_neg hz]
        have ho : d.node.dirent.data.offset 0 = .ok (sectorSize * d.node.dirent.data.sector.toNat + 0) := by
          unfold Region.offset; rw [if_neg (by omega)]
        rw [ho]
        exact hcopy p ds d _ hp k1 hdm hd hz ho
  · exfalso
    rcases createP_inv (imgReadDir fs.dev wf fs.vol.root) pathAsString fuel with
      ⟨_, k2⟩ | ⟨D, M, rootW, rootSize, next, recs, n', rest, hSh, ⟨k1, rfl, k3, k4⟩ | ⟨k1, k2⟩⟩
    · exact absurd hP k2
    · obtain ⟨x, hx⟩ := imgTreeLoop_total (σ := ImgFile) hSh.walked fuel fs [] s rfl hinv (by simp) (by
        intro x hx
        exact hlat x ((ht.2 x.1 x.2).2 ⟨(hSh.walked.mem_iff x.1).1 (List.mem_map_of_mem hx),
          hSh.walked.readDir hx⟩)) k3
      exact h1 x hx
    · exact absurd hP k1

theorem repack_works {copier : Copier} {wf fuel : Nat} {fs : ImgFs} {content : Path → Bytes}
    (hc : fs.cache = Trie.empty) (hcop : CopierWorks fs.dev copier)
    (hcont : ImgContent fs.dev wf fs.vol.root content)
    {tree : List (Path × List FileEntry)} (hL : Listable (imgReadDir fs.dev wf fs.vol.root))
    (ht : TreeOf (imgReadDir fs.dev wf fs.vol.root) tree) (hF : Fits tree)
    (hS : ∀ x ∈ tree, StorableListing x.2) (hK : ∀ x ∈ tree, TableWithin256K x.2)
    (hlat : ∀ x ∈ tree, ∀ e ∈ x.2, Latin1 e.name)
    (hf : tree.length ≤ fuel) (s : PackState ImgFile) :
    (repackImage copier (fun _ => none) wf fuel fs s).1 = .ok () := by
  refine repack_works_of hc ?_ hL ht hF hS hK hlat hf s
  intro p ds d off hp hds hdm hd hz ho
  have hread := hcont p ds d hp hds hdm hd
  unfold readDataAll at hread
  have hz' : ¬ d.node.dirent.data.size = 0 := fun hx => hz (by rw [hx]; rfl)
  rw [if_neg hz', ho] at hread
  exact hcop off _ _ hread

end Xdvdfs
