import Verif.Proof.SameImage
import Verif.Props.Attributes
import Verif.Props.StdFs

/-! # C134: what determines a packed image

Whether two images that hold the same things are the same, byte for byte, and whether repacking an image gives the same
image. -/

namespace Xdvdfs.Props

open TabWriter Spec

/-- Both list the same names, with the same kinds, in the same order, in every directory. -/
def ListedAlike (rd rd' : ReadDir) : Prop :=
  ∀ p, DirOf rd p → ∃ l l', rd p = .ok l ∧ rd' p = .ok l' ∧
    l.map (fun e => (e.name, e.isDir)) = l'.map (fun e => (e.name, e.isDir))

theorem insert_two {cmp : α → α → Ordering} {x y : α} (h : cmp y x ≠ .eq) : ∃ A1 A2 A3,
    Avl.empty.insert cmp x = .ok (true, A1) ∧ A1.insert cmp y = .ok (true, A2) ∧ A2.reorder = .ok A3 ∧
      A2.tree ≠ [] ∧ A3.tree.map AvlNode.data = [x, y] := by
  refine ⟨⟨some 0, [⟨none, none, none, 1, x⟩]⟩, ?_⟩
  cases hc : cmp y x with
  | eq => exact absurd hc h
  | lt =>
    refine ⟨⟨some 0, [⟨some 1, none, none, 2, x⟩, ⟨none, none, some 0, 1, y⟩]⟩, ⟨some 0, [⟨some 1, none, none, 2, x⟩, ⟨none, none, some 0, 1, y⟩]⟩, rfl, ?_, rfl, by simp, rfl⟩
    simp only [Avl.insert, Avl.insertDescend, Avl.get, List.length_cons]
    simp only [List.getElem?_cons_zero, Res.unwrap_some, Res.ok_bind, hc]
    rfl
  | gt =>
    refine ⟨⟨some 0, [⟨none, some 1, none, 2, x⟩, ⟨none, none, some 0, 1, y⟩]⟩, ⟨some 0, [⟨none, some 1, none, 2, x⟩, ⟨none, none, some 0, 1, y⟩]⟩, rfl, ?_, rfl, by simp, rfl⟩
    simp only [Avl.insert, Avl.insertDescend, Avl.get, List.length_cons]
    simp only [List.getElem?_cons_zero, Res.unwrap_some, Res.ok_bind, hc]
    rfl

theorem buildTable_two {a b : Item} {w : TabWriter} (hb : buildTable [a, b] = .ok w) {n n' : Nat} {r : DiskRepr}
    (hr : w.diskRepr n = .ok (r, n')) : r.fileListing.map Listing.name = [a.name, b.name] := by
  have hd := buildTable_distinct hb
  have hcmp : cmpDirData (itemData b) (itemData a) ≠ .eq := by
    intro he
    have hs := (cmp_eq_iff _ _).1 he
    simp only [DistinctNames, List.map_cons, List.map_nil, List.pairwise_cons] at hd
    exact hd.1 b.name (by simp) hs.symm
  obtain ⟨A1, A2, A3, h1, h2, h3, h4, h5⟩ := insert_two (cmp := cmpDirData) hcmp
  unfold buildTable at hb
  obtain ⟨w2, hw2, hc⟩ := Res.bind_eq_ok.1 hb
  simp only [addItems] at hw2
  obtain ⟨wa, ha, hw2⟩ := Res.bind_eq_ok.1 hw2
  obtain ⟨wb, hb', hw2⟩ := Res.bind_eq_ok.1 hw2
  cases hw2
  rw [addItem_eq] at ha hb'
  split at ha
  · split at ha
    · cases ha
    · have : (TabWriter.new).table = Avl.empty := rfl
      rw [this, h1] at ha
      cases ha
      split at hb'
      · split at hb'
        · cases hb'
        · simp only [h2, Res.ok_bind, if_true] at hb'
          cases hb'
          obtain ⟨o, _, hc⟩ := Res.bind_eq_ok.1 hc
          obtain ⟨sz, _, hc⟩ := Res.bind_eq_ok.1 hc
          cases hc
          rcases diskRepr_names (t := A3) h4 h3 hr with k | k
          · rw [k]
            have := congrArg (List.map DirData.name) h5
            rw [List.map_map] at this
            exact this
          · rw [k] at h5; cases h5
      · cases hb'
  · cases ha

theorem balanced_three {t : BT α} (hb : t.Balanced) (hs : t.size = 3) : ∃ a b c,
    t = .node (.node .nil a .nil) b (.node .nil c .nil) := by
  cases t with
  | nil => cases hs
  | node l b r =>
    obtain ⟨h1, h2, h3, h4⟩ := hb
    have hh : ∀ t : BT α, t.size = 0 → t = .nil := by intro t ht; cases t with
      | nil => rfl
      | node => simp [BT.size] at ht
    have h1' : ∀ t : BT α, t.size = 1 → ∃ a, t = .node .nil a .nil := by
      intro t ht; cases t with
      | nil => simp [BT.size] at ht
      | node l a r =>
        simp only [BT.size] at ht
        rw [hh l (by omega), hh r (by omega)]
        exact ⟨a, rfl⟩
    have h2' : ∀ t : BT α, t.size = 2 → t.height = 2 := by
      intro t ht; cases t with
      | nil => simp [BT.size] at ht
      | node l a r =>
        simp only [BT.size] at ht
        have : l.size = 1 ∧ r.size = 0 ∨ l.size = 0 ∧ r.size = 1 := by omega
        rcases this with ⟨e1, e2⟩ | ⟨e1, e2⟩
        · obtain ⟨c, rfl⟩ := h1' l e1
          rw [hh r e2]; rfl
        · obtain ⟨c, rfl⟩ := h1' r e2
          rw [hh l e1]; rfl
    simp only [BT.size] at hs
    have : l.size = 1 ∧ r.size = 1 ∨ l.size = 0 ∧ r.size = 2 ∨ l.size = 2 ∧ r.size = 0 := by omega
    rcases this with ⟨e1, e2⟩ | ⟨e1, e2⟩ | ⟨e1, e2⟩
    · obtain ⟨a, rfl⟩ := h1' l e1
      obtain ⟨c, rfl⟩ := h1' r e2
      exact ⟨a, b, c, rfl⟩
    · have := hh l e1; have e3 := h2' r e2
      subst this
      simp only [BT.height] at h1 h2
      omega
    · have := hh r e2; have e3 := h2' l e1
      subst this
      simp only [BT.height] at h1 h2
      omega

theorem sorted_names {t : BT DirData} (h : t.inorder.Pairwise (fun a b => cmpDirData a b = .lt)) :
    (t.inorder.map DirData.name).Pairwise (fun a b => cmpIgnoreCase a b = .lt) := by
  rw [List.pairwise_map]; exact h

/-- A directory of at most three entries that is added in the order in which it was stored is stored in this order
again. -/
theorem small_order {items : List Item} {w : TabWriter} (hb : buildTable items = .ok w) {n n' : Nat} {r : DiskRepr}
    (hr : w.diskRepr n = .ok (r, n')) (hlen : items.length ≤ 3) {t : BT DirData}
    (hs : t.inorder.Pairwise (fun a b => cmpDirData a b = .lt)) (hbal : t.Balanced)
    (hn : t.preorder.map DirData.name = items.map Item.name) {t' : BT DirData} (ht' : Tab w t') :
    t'.preorder.map DirData.name = items.map Item.name := by
  obtain ⟨u, u1, u2, u3, u4⟩ := tab_of hb
  have e1 := tab_names ht' hr
  rw [← e1, tab_names u1 hr]
  have up : (u.preorder.map DirData.name).Perm (items.map Item.name) := by
    have := u4.map DirData.name
    rwa [List.map_map] at this
  match items, hlen with
  | [], _ => exact up.eq_nil
  | [a], _ => exact List.perm_singleton.1 up
  | [a, b], _ => rw [← tab_names u1 hr]; exact buildTable_two hb hr
  | [a, b, c], _ =>
    have hsz : ∀ t : BT DirData, (t.preorder.map DirData.name).length = t.size := by
      intro t
      rw [List.length_map]
      induction t with
      | nil => rfl
      | node l x r a b => simp only [BT.preorder, BT.size, List.length_cons, List.length_append, a, b]
    obtain ⟨x, y, z, rfl⟩ := balanced_three hbal (by rw [← hsz, hn]; rfl)
    obtain ⟨x', y', z', rfl⟩ := balanced_three u3 (by rw [← hsz, up.length_eq]; rfl)
    have hin : ([x, y, z].map DirData.name) = ([x', y', z'].map DirData.name) := by
      refine List.Perm.eq_of_pairwise ?_ (sorted_names hs) (sorted_names u2) ?_
      · intro a b _ _ hab hba
        rw [cmp_swap, hab] at hba
        cases hba
      · refine ((BT.preorder_perm (.node (.node .nil x .nil) y (.node .nil z .nil))).map DirData.name).symm.trans ?_
        rw [hn]
        exact up.symm.trans ((BT.preorder_perm (.node (.node .nil x' .nil) y' (.node .nil z' .nil))).map DirData.name)
    rw [← hn]
    simp only [List.map_cons, List.map_nil, List.cons.injEq, and_true] at hin
    simp [BT.preorder, hin.1, hin.2.1, hin.2.2]

/-! ## Images that are alike -/

theorem ListedAlike.dirs {rd rd' : ReadDir} (h : ListedAlike rd rd') (p : Path) : DirOf rd p ↔ DirOf rd' p := by
  have mem : ∀ {l l' : List FileEntry}, l.map (fun e => (e.name, e.isDir)) = l'.map (fun e => (e.name, e.isDir)) →
      ∀ e ∈ l, ∃ e' ∈ l', e'.name = e.name ∧ e'.isDir = e.isDir := by
    intro l l' he e hm
    have : (e.name, e.isDir) ∈ l'.map (fun e => (e.name, e.isDir)) := by
      rw [← he]; exact List.mem_map.2 ⟨e, hm, rfl⟩
    obtain ⟨e', he', hx⟩ := List.mem_map.1 this
    simp only [Prod.mk.injEq] at hx
    exact ⟨e', he', hx⟩
  constructor
  · intro hp
    induction hp with
    | root => exact .root
    | @sub p l e h1 h2 h3 h4 ih =>
      obtain ⟨l1, l2, k1, k2, k3⟩ := h p h1
      rw [h2] at k1; cases k1
      obtain ⟨e', m1, m2, m3⟩ := mem k3 e h3
      rw [← m2]
      exact .sub ih k2 m1 (by rw [m3]; exact h4)
  · intro hp
    induction hp with
    | root => exact .root
    | @sub p l e h1 h2 h3 h4 ih =>
      obtain ⟨l1, l2, k1, k2, k3⟩ := h p ih
      rw [h2] at k2; cases k2
      obtain ⟨e', m1, m2, m3⟩ := mem k3.symm e h3
      rw [← m2]
      exact .sub ih k1 m1 (by rw [m3]; exact h4)

theorem packed_listing {fs : SourceFs} {content : Path → Bytes} {img : Bytes} {M : PathMap TabWriter}
    {Loc : Path → Listing → Prop} {l0 : Listing} (h : Packed fs content img M Loc l0) {wf : Nat}
    (hwf : ScanFuel fs.readDir wf) : SameTree fs.readDir (imgReadDir (fileDev img) wf (regionOf l0)) ∧
    ∀ p l, DirOf fs.readDir p → imgReadDir (fileDev img) wf (regionOf l0) p = .ok l →
      ∀ e ∈ l, e.isDir = false → e.len = (content (p ++ [e.name])).length := by
  obtain ⟨h1, h2⟩ := h.image.sameTree h.distinct h.root h.rootDir hwf h.listable
  refine ⟨h1, ?_⟩
  intro p l hp hl e he hd
  obtain ⟨lst, ds, _, k2, _, k4⟩ := h2 p hp
  simp only [imgReadDir, k2, Res.ok_bind, Res.pure_eq] at hl
  cases hl
  obtain ⟨d, hdm, rfl⟩ := List.mem_map.1 he
  exact (h.image.files _ _ (k4 d hdm) hd).1.symm

theorem same_image {fs fs' : SourceFs} {content content' : Path → Bytes} {img img' : Bytes} {M M' : PathMap TabWriter}
    {Loc Loc' : Path → Listing → Prop} {l0 l0' : Listing} {D D' : List (Path × List FileEntry)} {rootW rootW' : TabWriter}
    {rootSize rootSize' next next' : Nat} {recs recs' : List Rec} {n n' : Nat}
    (h : PackedBy fs content img M Loc l0 D rootW rootSize next recs n)
    (h' : PackedBy fs' content' img' M' Loc' l0' D' rootW' rootSize' next' recs' n')
    (hT : SameTree fs.readDir fs'.readDir) (ho : SameOrder M M')
    (hc : ∀ p e, EntryIn fs.readDir p e → e.isDir = false → content (p ++ [e.name]) = content' (p ++ [e.name])) :
    img = img' := by
  obtain ⟨h1, rfl⟩ := plan_same h.shape h'.shape hT ho
  rw [h.image, h'.image, ← h1]
  refine image_same ?_
  intro x hx l hl hd
  obtain ⟨e, k1, k2, k3, _⟩ := h.files x hx l hl hd
  rw [← k2]
  exact hc x.path e k1 k3

theorem repack_packedBy {dev : Dev} {fs : ImgFs} (hn : ImgFs.new dev = .ok (some fs)) {copier : Copier}
    (hcop : CopiesFrom dev copier) {faults : Faults} {wf fuel : Nat} {s' : PackState ImgFile} {content : Path → Bytes}
    (hcont : ImgContent dev wf fs.vol.root content)
    (h : repackImage copier faults wf fuel fs ⟨⟨[], []⟩, []⟩ = (.ok (), s')) :
    ∃ src M Loc l0 D rootW rootSize next recs n', src.readDir = imgReadDir dev wf fs.vol.root ∧
      PackedBy src content s'.dev.img M Loc l0 D rootW rootSize next recs n' := by
  obtain ⟨rfl, hc, _⟩ := new_spec hn
  rcases repack_cases hc h with ⟨fs', h1, h2, h3⟩ | ⟨h1, _⟩
  · have hrd : (pureSource wf copier fs').readDir = imgReadDir fs.dev wf fs.vol.root := by
      simp only [pureSource]; rw [h1.dev, h1.vol]
    obtain ⟨D, M, rootW, rootSize, next, recs, n', hS⟩ := shape_of_success h3
    have hdist := PlanShape.allDistinct (fs := pureSource wf copier fs') hS
    obtain ⟨M', Loc, l0, D', rootW', rootSize', next', recs', n'', hP⟩ := pack_packedBy (pureSource_bounded hcop)
      (pureSource_faithful h1 h2 (by rw [← hrd]; exact hdist) hcop hcont) h3
    exact ⟨_, M', Loc, l0, D', rootW', rootSize', next', recs', n'', hrd, hP⟩
  · exact absurd rfl (h1 ())

/-- How a directory that holds only files is stored. -/
theorem stored_names {fs : SourceFs} {content : Path → Bytes} {img : Bytes} {M : PathMap TabWriter}
    {Loc : Path → Listing → Prop} {l0 : Listing} {D : List (Path × List FileEntry)} {rootW : TabWriter}
    {rootSize next : Nat} {recs : List Rec} {n : Nat} (P : PackedBy fs content img M Loc l0 D rootW rootSize next recs n)
    {wf : Nat} (hwf : ScanFuel fs.readDir wf) {p : Path} (hp : DirOf fs.readDir p) {lst : List FileEntry}
    (hl : fs.readDir p = .ok lst) (hfiles : ∀ e ∈ lst, e.isDir = false) {w : TabWriter}
    (hb : buildTable (lst.map (fun e => ⟨e.name, false, UInt32.ofNat e.len⟩)) = .ok w) (hne : w.table.tree ≠ [])
    {A : Avl DirData} (hA : w.table.reorder = .ok A) :
    ∃ l, imgReadDir (fileDev img) wf (regionOf l0) p = .ok l ∧
      l.map FileEntry.name = A.tree.map (fun n => n.data.name) := by
  obtain ⟨x, hx, rfl⟩ := P.shape.recOf hp
  have hok := P.shape.recOK hx
  obtain ⟨lst', b1, _, b2⟩ := hok.built
  rw [hl] at b1; cases b1
  have he : lst.map (itemOf M x.path) = lst.map (fun e => ⟨e.name, false, UInt32.ofNat e.len⟩) := by
    apply List.map_congr_left
    intro e he
    simp [itemOf, hfiles e he]
  rw [he, hb] at b2
  cases b2
  obtain ⟨t, t1, _⟩ := tab_of hb
  obtain ⟨l, k1, k2⟩ := P.packed.stored P.shape.tabs hwf hp hok.get t1
  obtain ⟨n, n', hr⟩ := hok.repr
  refine ⟨l, k1, ?_⟩
  rw [k2, ← tab_names t1 hr]
  rcases diskRepr_names hne hA hr with k | k
  · exact k
  · exfalso
    have h1 := diskRepr_names hne hA hr
    have hT := hok.built
    obtain ⟨w0, T, hI, hc, htab⟩ := buildTable_inv hb
    obtain ⟨A', τ, e, _, _, hlen⟩ := Avl.reorder_spec hI.wf
    rw [htab] at hA hne
    rw [hA] at e
    cases e
    rw [k] at hlen
    exact hne (List.eq_nil_of_length_eq_zero hlen.symm)

/-- C134.  Two images made by `pack` (or by anything else that uses the same library call) that list the same entries in
the same order in every directory, and whose files have the same contents, are the same, byte for byte: it does not matter
where they come from, in which order their sources were listed, what the sources say about directories, or how the contents
were delivered. -/
theorem C134_determined {fs fs' : SourceFs} {content content' : Path → Bytes} {faults faults' : Faults} {fuel fuel' : Nat}
    {s s' : PackState ImgFile} (hb : Bounded fs) (hf : FaithfulTo fs content) (hb' : Bounded fs')
    (hf' : FaithfulTo fs' content')
    (h : createImage (fileEnv fs faults) fuel ⟨⟨[], []⟩, []⟩ = (.ok (), s))
    (h' : createImage (fileEnv fs' faults') fuel' ⟨⟨[], []⟩, []⟩ = (.ok (), s')) {vol vol' : VolDesc}
    (hv : readVolume (fileDev s.dev.img) = .ok vol) (hv' : readVolume (fileDev s'.dev.img) = .ok vol') {wf : Nat}
    (hwf : ScanFuel fs.readDir wf) (hwf' : ScanFuel fs'.readDir wf)
    (hl : ListedAlike (imgReadDir (fileDev s.dev.img) wf vol.root) (imgReadDir (fileDev s'.dev.img) wf vol'.root))
    (hc : ∀ p e, EntryIn (imgReadDir (fileDev s.dev.img) wf vol.root) p e → e.isDir = false →
      content (p ++ [e.name]) = content' (p ++ [e.name])) :
    s.dev.img = s'.dev.img := by
  obtain ⟨M, Loc, l0, D, rootW, rootSize, next, recs, n, P⟩ := pack_packedBy hb hf h
  obtain ⟨M', Loc', l0', D', rootW', rootSize', next', recs', n', P'⟩ := pack_packedBy hb' hf' h'
  rw [P.packed.volume] at hv
  cases hv
  rw [P'.packed.volume] at hv'
  cases hv'
  change ListedAlike (imgReadDir _ wf (regionOf l0)) (imgReadDir _ wf (regionOf l0')) at hl
  change ∀ p e, EntryIn (imgReadDir _ wf (regionOf l0)) p e → _ at hc
  obtain ⟨t1, t2⟩ := packed_listing P.packed hwf
  obtain ⟨t1', t2'⟩ := packed_listing P'.packed hwf'
  have hdirs : ∀ p, DirOf fs.readDir p ↔ DirOf fs'.readDir p := fun p =>
    (t1.dirs p).trans ((hl.dirs p).trans (t1'.dirs p).symm)
  have hsig : ∀ p l l', DirOf fs.readDir p → imgReadDir (fileDev s.dev.img) wf (regionOf l0) p = .ok l →
      imgReadDir (fileDev s'.dev.img) wf (regionOf l0') p = .ok l' → l.map sig = l'.map sig := by
    intro p l l' hp k k'
    obtain ⟨l1, l2, g1, g2, g3⟩ := hl p ((t1.dirs p).1 hp)
    rw [k] at g1; cases g1
    rw [k'] at g2; cases g2
    have hlen : l.length = l'.length := by simpa using congrArg List.length g3
    apply List.ext_getElem (by simpa using hlen)
    intro i i1 i2
    simp only [List.length_map] at i1 i2
    have ge : (l[i].name, l[i].isDir) = (l'[i].name, l'[i].isDir) := by
      have : (l.map (fun e => (e.name, e.isDir)))[i]? = (l'.map (fun e => (e.name, e.isDir)))[i]? := by rw [g3]
      simpa [i1, i2] using this
    simp only [Prod.mk.injEq] at ge
    simp only [List.getElem_map, sig, ge.1, ge.2, Prod.mk.injEq, true_and]
    cases hd : l'[i].isDir with
    | true => rfl
    | false =>
      have hd' : l[i].isDir = false := by rw [ge.2, hd]
      rw [t2 p l hp k l[i] (List.getElem_mem _) hd', t2' p l' ((hdirs p).1 hp) k' l'[i] (List.getElem_mem _) hd,
        hc p l[i] ⟨(t1.dirs p).1 hp, l, k, List.getElem_mem _⟩ hd', ge.1]
  have hT : SameTree fs.readDir fs'.readDir := by
    refine ⟨hdirs, ?_⟩
    intro p l hp hlst
    obtain ⟨l1, g1, g2⟩ := t1.lists p l hp hlst
    obtain ⟨l', g3⟩ := P'.packed.listable p ((hdirs p).1 hp)
    obtain ⟨l2, g4, g5⟩ := t1'.lists p l' ((hdirs p).1 hp) g3
    refine ⟨l', g3, ?_⟩
    rw [hsig p l1 l2 hp g1 g4] at g2
    exact g2.trans g5.symm
  have hdir : ∀ p w, M.get p = some w → DirOf fs.readDir p := fun p w hw =>
    ((tables_ok P.shape.walked P.shape.tables).2.2.2 p).1 (by rw [hw]; rfl)
  have hdir' : ∀ p w, M'.get p = some w → DirOf fs'.readDir p := fun p w hw =>
    ((tables_ok P'.shape.walked P'.shape.tables).2.2.2 p).1 (by rw [hw]; rfl)
  refine same_image P P' hT (StoredAs.order
    (fun p w t hw ht => P.packed.stored P.shape.tabs hwf (hdir p w hw) hw ht)
    (fun p w t hw ht => P'.packed.stored P'.shape.tabs hwf' (hdir' p w hw) hw ht) ?_) ?_
  · intro p l l' hp k k'
    obtain ⟨w, hw⟩ := Option.isSome_iff_exists.1 hp
    have := congrArg (List.map Prod.fst) (hsig p l l' (hdir p w hw) k k')
    simpa [List.map_map, Function.comp_def, sig] using this
  · intro p e ⟨hp, l, hlst, he⟩ hd
    obtain ⟨l1, g1, g2⟩ := t1.lists p l hp hlst
    obtain ⟨e', he', k1, k2, _⟩ := sig_mem g2 he
    rw [← k1]
    exact hc p e' ⟨(t1.dirs p).1 hp, l1, g1, he'⟩ (by rw [k2, hd])

/-- C134, repacking.  If no directory has more than three entries, then repacking an image made by `pack` gives the same
image, byte for byte.  Missing: larger directories, see `C134_repack_differs_false`. -/
theorem C134_repack_identical_partial {fs : SourceFs} {content : Path → Bytes} {faults : Faults} {fuel : Nat}
    {s : PackState ImgFile} (hb : Bounded fs) (hf : FaithfulTo fs content)
    (h : createImage (fileEnv fs faults) fuel ⟨⟨[], []⟩, []⟩ = (.ok (), s)) {ifs : ImgFs}
    (hn : ImgFs.new (fileDev s.dev.img) = .ok (some ifs)) {copier : Copier} (hcop : CopiesFrom (fileDev s.dev.img) copier)
    {faults' : Faults} {wf fuel' : Nat} {s' : PackState ImgFile} (hwf : ScanFuel fs.readDir wf)
    (hsmall : ∀ p l, DirOf fs.readDir p → fs.readDir p = .ok l → l.length ≤ 3)
    (hr : repackImage copier faults' wf fuel' ifs ⟨⟨[], []⟩, []⟩ = (.ok (), s')) :
    s'.dev.img = s.dev.img := by
  obtain ⟨M, Loc, l0, D, rootW, rootSize, next, recs, n, P⟩ := pack_packedBy hb hf h
  obtain ⟨_, _, hvol⟩ := new_spec hn
  have hroot : ifs.vol.root = regionOf l0 := by
    rw [P.packed.volume] at hvol
    rw [← Res.ok.inj hvol]
    rfl
  have hcont := P.packed.content_eq hwf
  rw [← hroot] at hcont
  obtain ⟨src, M', Loc', l0', D', rootW', rootSize', next', recs', n', hrd, P'⟩ := repack_packedBy hn hcop hcont hr
  rw [hroot] at hrd
  obtain ⟨hT, _⟩ := packed_listing P.packed hwf
  rw [← hrd] at hT
  refine (same_image P P' hT ?_ (fun _ _ _ _ => rfl)).symm
  intro p w w' t t' hw hw' ht ht'
  have hp := ((tables_ok P.shape.walked P.shape.tables).2.2.2 p).1 (by rw [hw]; rfl)
  obtain ⟨lst, k1, k2⟩ := P.packed.stored P.shape.tabs hwf hp hw ht
  obtain ⟨x, hx, hxp⟩ := P'.shape.recOf ((hT.dirs p).1 hp)
  have hok := P'.shape.recOK hx
  obtain ⟨lst', b1, _, b2⟩ := hok.built
  have hg := hok.get
  rw [hxp, hw'] at hg
  cases hg
  rw [hxp, hrd, k1] at b1
  cases b1
  obtain ⟨m, m', hrep⟩ := hok.repr
  obtain ⟨l, _, _, hbt⟩ := P.shape.tabs.built p w hw
  obtain ⟨u, u1, u2, u3, _⟩ := tab_of hbt
  obtain ⟨lst2, v1, v2⟩ := P.packed.stored P.shape.tabs hwf hp hw u1
  rw [k1] at v1
  cases v1
  obtain ⟨ls, q1⟩ := P.packed.listable p hp
  obtain ⟨l2, q2, q3⟩ := hT.lists p ls hp q1
  rw [hrd, k1] at q2
  cases q2
  have hlen : lst.length ≤ 3 := by
    have := q3.length_eq
    simp only [List.length_map] at this
    have := hsmall p ls hp q1
    omega
  have hnames : (lst.map (itemOf M' x.path)).map Item.name = lst.map FileEntry.name := Item.names_map M' x.path lst
  rw [← k2, ← hnames]
  exact (small_order b2 hrep (by simpa using hlen) u2 u3 (by rw [hnames]; exact v2.symm) ht').symm

/-! ## Examples -/

/-- The sample tree meets the hypotheses of `C134_repack_identical_partial`: it packs, its image repacks, and the two images
are the same. -/
example : ∃ s1 fs s2, createImage (fileEnv sampleFs' (fun _ => none)) 2 ⟨⟨[], []⟩, []⟩ = (.ok (), s1) ∧
    ImgFs.new (fileDev s1.dev.img) = .ok (some fs) ∧
    repackImage (defaultCopier (fileDev s1.dev.img)) (fun _ => none) 3 2 fs ⟨⟨[], []⟩, []⟩ = (.ok (), s2) ∧
    s2.dev.img = s1.dev.img := by
  obtain ⟨s1, h1⟩ := sample_packs []
  obtain ⟨fs, n1, g2⟩ := C44_repack_succeeds_partial sample'_bounded sample'_faithful h1 sample_tree sample_fits
    sample_storable sample_few sample_latin1
  have hk := g2 (defaultCopier (fileDev s1.dev.img)) 3 2 ⟨⟨[], []⟩, []⟩
    (defaultCopier_works (fileDev_parts _)) sample_scanFuel (by decide)
  rcases hr : repackImage (defaultCopier (fileDev s1.dev.img)) (fun _ => none) 3 2 fs ⟨⟨[], []⟩, []⟩ with ⟨r, s2⟩
  rw [hr] at hk
  simp only at hk
  subst hk
  refine ⟨s1, fs, s2, h1, n1, hr, C134_repack_identical_partial sample'_bounded sample'_faithful h1 n1
    (defaultCopier_copies (fileDev_parts _)) sample_scanFuel ?_ hr⟩
  intro p l hp hl
  rcases (sample_dirs p).1 hp with rfl | rfl <;> cases hl <;> decide

/-- One-byte files. -/
def smallFiles (names : List Char) : List (Str × Bytes) := names.map (fun c => ([c], [c.toNat.toUInt8]))

theorem smallFiles_scanFuel (names : List Char) {wf : Nat} (h : names.length < wf) :
    ScanFuel (flatFs (smallFiles names)).readDir wf := by
  intro p l hp hl
  rw [flat_dirs] at hp
  subst hp
  simp only [flatFs, if_true, Res.ok.injEq] at hl
  subst hl
  simpa [smallFiles] using h

/-- What is computed for a directory of one-byte files: the order in which it is stored. -/
def storedAs (names : List Char) : Res (List Str) := do
  let w ← buildTable (names.map (fun c => ⟨[c], false, 1⟩))
  let A ← w.table.reorder
  pure (A.tree.map (fun n => n.data.name))

theorem storedAs_ok {names : List Char} {o : List Str} (h : storedAs names = .ok o) (hne : names ≠ []) :
    ∃ w A, buildTable (names.map (fun c => ⟨[c], false, 1⟩)) = .ok w ∧ w.table.tree ≠ [] ∧ w.table.reorder = .ok A ∧
      A.tree.map (fun n => n.data.name) = o := by
  unfold storedAs at h
  obtain ⟨w, h1, h⟩ := Res.bind_eq_ok.1 h
  obtain ⟨A, h2, h⟩ := Res.bind_eq_ok.1 h
  cases h
  refine ⟨w, A, h1, ?_, h2, rfl⟩
  intro hw
  obtain ⟨w0, T, hI, hc, ht⟩ := buildTable_inv h1
  have := hI.data
  rw [← ht, hw] at this
  simp only [List.map_nil, List.map_map] at this
  exact hne (by simpa using this.symm)

theorem smallFiles_faithful {names : List Char} (hd : DistinctNames (names.map (fun c => [c]))) :
    FaithfulTo (flatFs (smallFiles names)) (flatContent (smallFiles names)) :=
  flat_faithful (by rw [smallFiles, List.map_map]; exact hd)

theorem smallFiles_stored {names : List Char} {s : PackState ImgFile} (hd : DistinctNames (names.map (fun c => [c])))
    (h : createImage (fileEnv (flatFs (smallFiles names)) (fun _ => none)) 1 ⟨⟨[], []⟩, []⟩ = (.ok (), s))
    {o : List Str} (ho : storedAs names = .ok o) (hne : names ≠ []) {wf : Nat} (hwf : names.length < wf) :
    ∃ vol l, readVolume (fileDev s.dev.img) = .ok vol ∧ imgReadDir (fileDev s.dev.img) wf vol.root [] = .ok l ∧
      l.map FileEntry.name = o ∧ (∀ e ∈ l, e.isDir = false ∧ e.len = 1) ∧
      ∀ p, DirOf (imgReadDir (fileDev s.dev.img) wf vol.root) p → p = [] := by
  obtain ⟨M, Loc, l0, D, rootW, rootSize, next, recs, n, P⟩ := pack_packedBy (flat_bounded _) (smallFiles_faithful hd) h
  obtain ⟨w, A, h1, h2, h3, h4⟩ := storedAs_ok ho hne
  have hw := smallFiles_scanFuel names hwf
  have hl : (flatFs (smallFiles names)).readDir [] = .ok (names.map (fun c => ⟨[c], false, 1⟩)) := by
    simp only [flatFs, if_true, smallFiles, List.map_map]
    rfl
  obtain ⟨l, k1, k2⟩ := stored_names P hw .root hl (by
    intro e he
    obtain ⟨c, _, rfl⟩ := List.mem_map.1 he
    rfl) (by rw [List.map_map]; exact h1) h2 h3
  obtain ⟨hT, _⟩ := packed_listing P.packed hw
  refine ⟨_, l, P.packed.volume, k1, by rw [k2, h4], ?_, ?_⟩
  · intro e he
    obtain ⟨l', g1, g2⟩ := hT.lists [] _ .root hl
    change imgReadDir _ _ (regionOf l0) [] = _ at k1
    rw [k1] at g1
    cases g1
    obtain ⟨e', m1, m2, m3, m4⟩ := sig_mem g2.symm he
    obtain ⟨c, _, rfl⟩ := List.mem_map.1 m1
    simp only at m3
    exact ⟨m3.symm, (m4 m3.symm).symm⟩
  · intro p hp
    exact (flat_dirs p).1 ((hT.dirs p).2 hp)

theorem smallFiles_ok {names : List Char} (hd : DistinctNames (names.map (fun c => [c])))
    (hn : ∀ c ∈ names, c.toNat < 0x80) (hf : names.length ≤ 800) : FlatOk (smallFiles names) := by
  refine ascii_flatOk (by rw [smallFiles, List.map_map]; exact hd) ?_ ?_ (by simpa [smallFiles] using hf)
  · intro x hx
    obtain ⟨c, hc, rfl⟩ := List.mem_map.1 hx
    refine ⟨?_, ?_⟩
    · have := Char.utf8Size_le_four c
      simp [utf8Len]; omega
    · intro d hd; simp at hd; subst hd; exact hn _ hc
  · intro x hx
    obtain ⟨c, hc, rfl⟩ := List.mem_map.1 hx
    simp

/-- `C134_determined` applies to a directory of three files that is listed in two different orders: the images are the
same. -/
example : ∃ s s', createImage (fileEnv (flatFs (smallFiles ['a', 'b', 'c'])) (fun _ => none)) 1 ⟨⟨[], []⟩, []⟩ = (.ok (), s) ∧
    createImage (fileEnv (flatFs (smallFiles ['c', 'a', 'b'])) (fun _ => none)) 1 ⟨⟨[], []⟩, []⟩ = (.ok (), s') ∧
    s.dev.img = s'.dev.img := by
  have d1 : DistinctNames (['a', 'b', 'c'].map (fun c => [c])) := by unfold DistinctNames; decide
  have d2 : DistinctNames (['c', 'a', 'b'].map (fun c => [c])) := by unfold DistinctNames; decide
  obtain ⟨s, h⟩ := flat_packs (smallFiles_ok d1 (by decide) (by decide)) []
  obtain ⟨s', h'⟩ := flat_packs (smallFiles_ok d2 (by decide) (by decide)) []
  refine ⟨s, s', h, h', ?_⟩
  obtain ⟨vol, l, a1, a2, a3, a4, a5⟩ := smallFiles_stored d1 h (o := [['b'], ['a'], ['c']]) rfl (by decide) (wf := 4) (by decide)
  obtain ⟨vol', l', b1, b2, b3, b4, b5⟩ := smallFiles_stored d2 h' (o := [['b'], ['a'], ['c']]) rfl (by decide) (wf := 4) (by decide)
  refine C134_determined (wf := 4) (flat_bounded _) (smallFiles_faithful d1) (flat_bounded _) (smallFiles_faithful d2) h h' a1 b1
    (smallFiles_scanFuel _ (by decide)) (smallFiles_scanFuel _ (by decide)) ?_ ?_
  · intro p hp
    have := a5 p hp
    subst this
    refine ⟨l, l', a2, b2, ?_⟩
    have e : ∀ l : List FileEntry, (∀ e ∈ l, e.isDir = false ∧ e.len = 1) →
        l.map (fun e => (e.name, e.isDir)) = (l.map FileEntry.name).map (fun n => (n, false)) := by
      intro l hl
      rw [List.map_map]
      apply List.map_congr_left
      intro e he
      simp [(hl e he).1]
    rw [e l a4, e l' b4, a3, b3]
  · intro p e ⟨hp, l2, g1, g2⟩ _
    have := a5 p hp
    subst this
    rw [a2] at g1
    cases g1
    have : e.name ∈ l.map FileEntry.name := List.mem_map_of_mem g2
    rw [a3] at this
    simp only [List.mem_cons, List.not_mem_nil, or_false] at this
    rcases this with k | k | k <;> rw [k] <;> decide

/-- C134 is false of larger directories: an image with four files whose repacked image is another one. -/
theorem C134_repack_differs_false : ∃ (fs : SourceFs) (content : Path → Bytes) (s s' : PackState ImgFile) (ifs : ImgFs),
    Bounded fs ∧ FaithfulTo fs content ∧ ScanFuel fs.readDir 5 ∧
    createImage (fileEnv fs (fun _ => none)) 1 ⟨⟨[], []⟩, []⟩ = (.ok (), s) ∧
    ImgFs.new (fileDev s.dev.img) = .ok (some ifs) ∧
    repackImage (defaultCopier (fileDev s.dev.img)) (fun _ => none) 5 1 ifs ⟨⟨[], []⟩, []⟩ = (.ok (), s') ∧
    s'.dev.img ≠ s.dev.img := by
  have d1 : DistinctNames (['c', 'b', 'd', 'a'].map (fun c => [c])) := by unfold DistinctNames; decide
  have hok := smallFiles_ok d1 (by decide) (by decide)
  obtain ⟨s, h⟩ := flat_packs hok []
  have hwf : ScanFuel (flatFs (smallFiles ['c', 'b', 'd', 'a'])).readDir 5 := smallFiles_scanFuel _ (by decide)
  obtain ⟨ifs, n1, g2⟩ := C44_repack_succeeds_partial (flat_bounded _) (smallFiles_faithful d1) h (flat_tree _) (flat_fits hok)
    (flat_storable hok) (flat_few hok) (by
      intro x hx e he
      simp only [flatTree, List.mem_singleton] at hx
      subst hx
      obtain ⟨y, hy, rfl⟩ := List.mem_map.1 he
      revert y
      unfold Latin1
      decide)
  have hk := g2 (defaultCopier (fileDev s.dev.img)) 5 1 ⟨⟨[], []⟩, []⟩ (defaultCopier_works (fileDev_parts _)) hwf
    (by simp [flatTree])
  rcases hr : repackImage (defaultCopier (fileDev s.dev.img)) (fun _ => none) 5 1 ifs ⟨⟨[], []⟩, []⟩ with ⟨r, s'⟩
  rw [hr] at hk
  simp only at hk
  subst hk
  refine ⟨_, _, s, s', ifs, flat_bounded _, smallFiles_faithful d1, hwf, h, n1, hr, ?_⟩
  obtain ⟨vol, l, a1, a2, a3, a4, a5⟩ := smallFiles_stored d1 h (o := [['c'], ['b'], ['a'], ['d']]) rfl (by decide) (wf := 5)
    (by decide)
  obtain ⟨_, _, hvol⟩ := new_spec n1
  rw [a1] at hvol
  cases hvol
  obtain ⟨M0, Loc0, l00, P0⟩ := pack_packed (flat_bounded _) (smallFiles_faithful d1) h
  have hcont := P0.content_eq hwf
  have hv := P0.volume
  rw [a1] at hv
  have hroot : ifs.vol.root = regionOf l00 := by rw [Res.ok.inj hv]; rfl
  rw [← hroot] at hcont
  obtain ⟨src, M, Loc, l0, D, rootW, rootSize, next, recs, n, hrd, P⟩ :=
    repack_packedBy n1 (defaultCopier_copies (fileDev_parts _)) hcont hr
  intro he
  obtain ⟨w, A, e1, e2, e3, e4⟩ := storedAs_ok (names := ['c', 'b', 'a', 'd']) (o := [['b'], ['a'], ['c'], ['d']]) rfl (by decide)
  have hlen : l.length = 4 := by simpa using congrArg List.length a3
  have hitems : l.map (fun e => (⟨e.name, false, UInt32.ofNat e.len⟩ : Item)) =
      ['c', 'b', 'a', 'd'].map (fun c => ⟨[c], false, 1⟩) := by
    have : l.map (fun e => (⟨e.name, false, UInt32.ofNat e.len⟩ : Item)) =
        (l.map FileEntry.name).map (fun n => ⟨n, false, 1⟩) := by
      rw [List.map_map]
      apply List.map_congr_left
      intro e he
      simp only [(a4 e he).2, Function.comp_apply]
      rfl
    rw [this, a3]
    rfl
  obtain ⟨l2, k1, k2⟩ := stored_names P (wf := 5) (p := []) (by
      intro p l' hp hl'
      rw [hrd] at hp hl'
      rw [a5 p hp, a2] at hl'
      cases hl'
      omega) .root (lst := l) (by rw [hrd]; exact a2) (fun e he => (a4 e he).1) (w := w) (by
      rw [hitems]
      exact e1) e2 e3
  have hv2 := P.packed.volume
  rw [he, a1] at hv2
  have hroot2 : ifs.vol.root = regionOf l0 := by rw [Res.ok.inj hv2]; rfl
  rw [he, ← hroot2, a2] at k1
  cases k1
  rw [a3, e4] at k2
  revert k2
  decide

end Xdvdfs.Props
