import Verif.Proof.Table
import Verif.Spec.Dirtab

/-! # From a built table to its serialized tree -/

namespace Xdvdfs

open TabWriter Spec ITree

instance : Std.OrientedCmp cmpDirData where
  eq_swap {a b} := Std.OrientedCmp.eq_swap (cmp := cmpIgnoreCase) (a := a.name) (b := b.name)

instance : Std.TransCmp cmpDirData where
  isLE_trans {a b c} h1 h2 := Std.TransCmp.isLE_trans (cmp := cmpIgnoreCase) (a := a.name)
    (b := b.name) (c := c.name) h1 h2

theorem AvlWF.data_perm {cmp : α → α → Ordering} {A : Avl α} {T : ITree α} (h : AvlWF cmp A T) :
    (T.inord.map Prod.snd).Perm (A.tree.map AvlNode.data) := by
  have hp : (T.inord.map Prod.fst).Perm (List.range A.tree.length) := T.inord_idxs.trans h.perm
  have h4 : T.inord.map (fun x => (A.tree[x.1]?).map AvlNode.data) = T.inord.map (fun x => some x.2) := by
    apply List.map_congr_left
    rintro ⟨i, d⟩ hm
    have := h.mem_inord.1 hm
    simpa using this
  have h5 : (List.range A.tree.length).map (fun i => (A.tree[i]?).map AvlNode.data)
      = (A.tree.map AvlNode.data).map some := by
    apply List.ext_getElem
    · simp
    · intro i h1 h2; simp at h1; simp [h1]
  have h6 := (hp.map (fun i => (A.tree[i]?).map AvlNode.data))
  rw [List.map_map] at h6
  have h7 : ((T.inord.map Prod.snd).map some).Perm ((A.tree.map AvlNode.data).map some) := by
    rw [← h5]
    refine List.Perm.trans ?_ h6
    rw [List.map_map]
    refine List.Perm.of_eq ?_
    exact h4.symm
  have h8 := h7.filterMap id
  simpa [List.filterMap_map] using h8

/-- The stored record of an item (its sector is not yet known). -/
def itemData (it : Item) : DirData :=
  { node := ⟨⟨0, UInt32.ofNat it.storedSize⟩, it.attrs, UInt8.ofNat (utf8Len it.name)⟩, name := it.name }

theorem roundUp_eq (n : Nat) : n + (2048 - n % 2048) % 2048 = roundUp n := by
  unfold roundUp; omega

/-- Adding one item. -/
theorem addItem_eq (w : TabWriter) (it : Item) :
    addItem w it = (if it.storedSize < 2 ^ 32 then
      if utf8Len it.name > 255 then .err .fileNameTooLong
      else do
        let r ← w.table.insert cmpDirData (itemData it)
        if r.1 then pure { table := r.2, size := none } else .err .duplicateFileName
      else .panic) := by
  have hn (size : UInt32) (attrs : UInt8) : w.addNode it.name size attrs =
      (if utf8Len it.name > 255 then .err .fileNameTooLong
      else do
        let r ← w.table.insert cmpDirData
          { node := ⟨⟨0, size⟩, attrs, UInt8.ofNat (utf8Len it.name)⟩, name := it.name }
        if r.1 then pure { table := r.2, size := none } else .err .duplicateFileName) := by
    unfold addNode
    by_cases h : utf8Len it.name > 255
    · rw [if_pos h]; split <;> rfl
    · rw [if_neg h, if_neg (by omega)]
  unfold addItem
  cases hd : it.isDir with
  | false =>
    have e : it.storedSize = it.size.toNat := by simp [Item.storedSize, hd]
    rw [if_neg (by simp), e, if_pos it.size.toNat_lt]
    unfold addFile
    rw [hn]
    simp only [itemData, e, Item.attrs, hd]
    simp
  | true =>
    have e : it.storedSize = roundUp it.size.toNat := by simp [Item.storedSize, hd]
    rw [if_pos rfl]
    unfold addDir
    simp only [roundUp_eq]
    rw [e, hn]
    simp only [itemData, e, Item.attrs, hd]
    rfl

/-- What a writer holds after adding items. -/
structure WInv (w : TabWriter) (items : List Item) (T : ITree DirData) : Prop where
  wf : AvlWF cmpDirData w.table T
  data : w.table.tree.map AvlNode.data = items.map itemData
  small : ∀ it ∈ items, it.storedSize < 2 ^ 32
  short : ∀ it ∈ items, utf8Len it.name ≤ 255
  distinct : items.Pairwise (fun a b => cmpIgnoreCase b.name a.name ≠ .eq)

theorem WInv.new : WInv TabWriter.new [] .nil where
  wf := AvlWF.empty _
  data := rfl
  small := by simp
  short := by simp
  distinct := by simp

theorem accept_itemData (items : List Item) (it : Item) :
    Spec.accept cmpDirData (items.map itemData) (itemData it) =
      (if items.any (fun y => cmpIgnoreCase it.name y.name == .eq) then (false, items.map itemData)
       else (true, (items ++ [it]).map itemData)) := by
  unfold Spec.accept
  have : (items.map itemData).any (fun y => cmpDirData (itemData it) y == .eq)
      = items.any (fun y => cmpIgnoreCase it.name y.name == .eq) := by
    rw [List.any_map]; rfl
  rw [this]
  split <;> simp

theorem addItem_spec {w : TabWriter} {items : List Item} {T : ITree DirData} (h : WInv w items T)
    (it : Item) :
    (∃ w' T', addItem w it = .ok w' ∧ WInv w' (items ++ [it]) T' ∧ w'.size = none) ∨
    (addItem w it = .err .fileNameTooLong ∧ 255 < utf8Len it.name) ∨
    (addItem w it = .err .duplicateFileName ∧ ∃ y ∈ items, cmpIgnoreCase it.name y.name = .eq) ∨
    (addItem w it = .panic ∧ 2 ^ 32 ≤ it.storedSize) := by
  rw [addItem_eq]
  by_cases h1 : it.storedSize < 2 ^ 32
  · rw [if_pos h1]
    by_cases h2 : utf8Len it.name > 255
    · rw [if_pos h2]; right; left; exact ⟨rfl, h2⟩
    · rw [if_neg h2]
      obtain ⟨A', T', e, hwf, hd, hsame⟩ := Avl.insert_spec h.wf (itemData it)
      rw [h.data, accept_itemData] at e hd
      by_cases hany : items.any (fun y => cmpIgnoreCase it.name y.name == .eq) = true
      · rw [if_pos hany] at e
        right; right; left
        rw [e]
        refine ⟨rfl, ?_⟩
        obtain ⟨y, hy, hc⟩ := List.any_eq_true.1 hany
        exact ⟨y, hy, by simpa using hc⟩
      · rw [if_neg hany] at e hd
        left
        rw [e]
        refine ⟨_, T', rfl, ⟨hwf, hd, ?_, ?_, ?_⟩, rfl⟩
        · intro x hx
          rcases List.mem_append.1 hx with hx | hx
          · exact h.small x hx
          · simp at hx; subst hx; exact h1
        · intro x hx
          rcases List.mem_append.1 hx with hx | hx
          · exact h.short x hx
          · simp at hx; subst hx; omega
        · rw [List.pairwise_append]
          refine ⟨h.distinct, by simp, ?_⟩
          intro a ha b hb
          simp at hb; subst hb
          intro hc
          exact hany (List.any_eq_true.2 ⟨a, ha, by simp [hc]⟩)
  · rw [if_neg h1]; right; right; right; exact ⟨rfl, by omega⟩

theorem addItems_ok {w w' : TabWriter} {items : List Item} {T : ITree DirData} (h : WInv w items T) :
    ∀ {its : List Item}, addItems w its = .ok w' → ∃ T', WInv w' (items ++ its) T' := by
  intro its
  induction its generalizing w items T with
  | nil => intro e; simp only [addItems] at e; cases e; exact ⟨T, by simpa using h⟩
  | cons it its ih =>
    intro e
    simp only [addItems, Res.bind_eq_ok] at e
    obtain ⟨w1, e1, e2⟩ := e
    rcases addItem_spec h it with ⟨w2, T2, h1, h2, _⟩ | ⟨h1, _⟩ | ⟨h1, _⟩ | ⟨h1, _⟩ <;> rw [e1] at h1
    · cases h1
      obtain ⟨T', h3⟩ := ih h2 e2
      exact ⟨T', by simpa using h3⟩
    · cases h1
    · cases h1
    · cases h1

theorem lensOnDisk_congr : ∀ {ns ms : List (AvlNode DirData)},
    ns.map AvlNode.data = ms.map AvlNode.data → lensOnDisk ns = lensOnDisk ms := by
  intro ns
  induction ns with
  | nil => intro ms h; cases ms with
    | nil => rfl
    | cons => simp at h
  | cons n ns ih => intro ms h; cases ms with
    | nil => simp at h
    | cons m ms =>
      simp only [List.map_cons, List.cons.injEq] at h
      simp only [lensOnDisk, h.1, ih h.2]

theorem Rep.nodes {tr : List (AvlNode α)} {p : Option Nat} {T : ITree α} (h : Rep tr p T) :
    ∃ ns : List (AvlNode α), T.idxs.map (fun i => tr[i]?) = ns.map some ∧
      ns.map AvlNode.data = T.erase.preorder := by
  induction T generalizing p with
  | nil => exact ⟨[], rfl, rfl⟩
  | node i hh d l r ihl ihr =>
    obtain ⟨h1, h2, h3⟩ := h
    obtain ⟨n1, e1, e1'⟩ := ihl h2
    obtain ⟨n2, e2, e2'⟩ := ihr h3
    refine ⟨⟨l.ptr, r.ptr, p, hh, d⟩ :: (n1 ++ n2), ?_, ?_⟩
    · simp [idxs, h1, e1, e2]
    · simp [erase, BT.preorder, e1', e2']

theorem range_nodes {A : Avl α} : (List.range A.tree.length).map (fun i => A.tree[i]?) = A.tree.map some := by
  apply List.ext_getElem
  · simp
  · intro i h1 h2; simp at h1; simp [h1]

/-- After reordering, the storage order is the pre-order. -/
theorem reordered_data {cmp : α → α → Ordering} {A : Avl α} {T : ITree α} (h : AvlWF cmp A T)
    (hi : T.idxs = List.range A.tree.length) : A.tree.map AvlNode.data = T.erase.preorder := by
  obtain ⟨ns, h1, h2⟩ := Rep.nodes h.zip.rep
  rw [hi, range_nodes] at h1
  have : A.tree = ns := by
    have := congrArg (List.filterMap id) h1
    simpa [List.filterMap_map] using this
  rw [this, h2]

/-- A computed size. -/
theorem computeSize_ok {w w' : TabWriter} {T : ITree DirData} (h : AvlWF cmpDirData w.table T)
    (hc : w.computeSize = .ok w') : w'.table = w.table ∧ ∃ lens,
      (∀ ns : List (AvlNode DirData), ns.map AvlNode.data = T.erase.preorder → lensOnDisk ns = .ok lens) ∧
      w'.size = some (total 0 lens) ∧ total 0 lens < 2 ^ 32 := by
  unfold computeSize at hc
  rw [Avl.preorder_spec h] at hc
  simp only [Res.ok_bind, Res.bind_eq_ok] at hc
  obtain ⟨s, hs, hc⟩ := hc
  cases hc
  obtain ⟨ns, h1, h2⟩ := Rep.nodes h.zip.rep
  obtain ⟨ls, h3, h4, h5⟩ := sizeLoop_ok _ _ _ _ h1 hs
  refine ⟨rfl, ls, fun ms hms => ?_, by simp [h4], ?_⟩
  · rw [← h3]; exact lensOnDisk_congr (by rw [hms, h2])
  · cases ls with
    | nil => simp [total]
    | cons => rw [h4]; exact h5 (by simp)

theorem computeSize_eq {w : TabWriter} {T : ITree DirData} (h : AvlWF cmpDirData w.table T)
    {lens : List Nat} {ns : List (AvlNode DirData)} (hd : ns.map AvlNode.data = T.erase.preorder)
    (hl : lensOnDisk ns = .ok lens) (ht : total 0 lens < 2 ^ 32) :
    w.computeSize = .ok { w with size := some (total 0 lens) } := by
  obtain ⟨ms, h1, h2⟩ := Rep.nodes h.zip.rep
  have : lensOnDisk ms = .ok lens := by rw [← hl]; exact lensOnDisk_congr (by rw [h2, hd])
  unfold computeSize
  rw [Avl.preorder_spec h]
  simp only [Res.ok_bind, sizeLoop_eq _ _ _ _ h1 this ht, Res.pure_eq]

/-- Everything there is to know about a table written by the packer. -/
structure Written (w : TabWriter) (next : Nat) (r : DiskRepr) (next' : Nat) (A' : Avl DirData)
    (T' : ITree DirData) (lens : List Nat) (es : List (Ent × Listing)) : Prop where
  wf : AvlWF cmpDirData A' T'
  idx : T'.idxs = List.range A'.tree.length
  perm : (A'.tree.map AvlNode.data).Perm (w.table.tree.map AvlNode.data)
  lens_ok : lensOnDisk A'.tree = .ok lens
  size : w.size = some (total 0 lens)
  size_lt : total 0 lens < 2 ^ 32
  ents : mkEnts (offs 0 lens) A'.tree next = .ok (es, next')
  table : r.entryTable = tabBytes 0 (es.map Prod.fst) ++
    List.replicate ((2048 - total 0 lens % 2048) % 2048) 0xff
  listing : r.fileListing = es.map Prod.snd

theorem diskRepr_eq {w0 w : TabWriter} {T : ITree DirData} (h : AvlWF cmpDirData w0.table T)
    (hc : w0.computeSize = .ok w) (hne : w.table.tree ≠ []) :
    ∃ A' T' lens, AvlWF cmpDirData A' T' ∧ T'.idxs = List.range A'.tree.length ∧
      (A'.tree.map AvlNode.data).Perm (w.table.tree.map AvlNode.data) ∧
      lensOnDisk A'.tree = .ok lens ∧ w.size = some (total 0 lens) ∧ total 0 lens < 2 ^ 32 ∧
      ∀ next, w.diskRepr next = (do
        let (es, next') ← mkEnts (offs 0 lens) A'.tree next
        pure ({ entryTable := tabBytes 0 (es.map Prod.fst) ++
                  List.replicate ((2048 - total 0 lens % 2048) % 2048) 0xff
                fileListing := es.map Prod.snd }, next')) := by
  obtain ⟨ht, lens, hl, hsz, hlt⟩ := computeSize_ok h hc
  obtain ⟨A', τ, e, hw, hi, hlen⟩ := Avl.reorder_spec h
  rw [← hlen] at hi
  have hpre : A'.tree.map AvlNode.data = T.erase.preorder := by
    rw [reordered_data hw hi, T.rename_erase τ]
  have hl' := hl _ hpre
  have hperm : (A'.tree.map AvlNode.data).Perm (w.table.tree.map AvlNode.data) := by
    rw [ht]
    refine hw.data_perm.symm.trans (List.Perm.trans ?_ h.data_perm)
    rw [T.rename_inord τ, List.map_map]
    exact .refl _
  refine ⟨A', T.rename τ, lens, hw, hi, hperm, hl', hsz, hlt, ?_⟩
  intro next
  obtain ⟨hll, hlf⟩ := lensOnDisk_forall hl'
  have hne' : lens ≠ [] := by
    intro h0
    rw [h0, hlen] at hll
    rw [ht] at hne
    exact hne (List.eq_nil_of_length_eq_zero (by simpa using hll.symm))
  unfold diskRepr
  rw [if_neg hne, ht, e]
  simp only [Res.ok_bind, hl']
  rw [if_neg hne', entryOffsets_eq hne' (by omega) (fun x hx => (hlf x hx).1)]
  simp only [Res.ok_bind]
  rw [reprLoop_eq _ _ _ _ [] [] lens hl' (by simp)]
  cases hm : mkEnts (offs 0 lens) A'.tree next with
  | ok r =>
    obtain ⟨es, next'⟩ := r
    have hbl : (tabBytes 0 (es.map Prod.fst)).length = total 0 lens := by
      have := tabBytes_length 0 (es.map Prod.fst)
      rw [mkEnts_lens hm hl'] at this
      omega
    have hpos : 0 < total 0 lens := by
      cases lens with
      | nil => exact absurd rfl hne'
      | cons l ls =>
        simp only [total]
        have := le_total (place 0 l + l) ls
        have := (hlf l (by simp)).2.1
        omega
    simp only [Res.ok_bind, Res.pure_eq, List.nil_append, List.length_nil, checkSize, hsz, hbl]
    rw [Nat.mod_eq_of_lt hlt]
    simp [hpos]
  | err e => rfl
  | panic => rfl
  | hang => rfl

theorem diskRepr_ok {w0 w : TabWriter} {T : ITree DirData} (h : AvlWF cmpDirData w0.table T)
    (hc : w0.computeSize = .ok w) (hne : w.table.tree ≠ []) {next next' : Nat} {r : DiskRepr}
    (hr : w.diskRepr next = .ok (r, next')) :
    ∃ A' T' lens es, Written w next r next' A' T' lens es := by
  obtain ⟨A', T', lens, h1, h2, h3, h4, h5, h6, h7⟩ := diskRepr_eq h hc hne
  rw [h7, Res.bind_eq_ok] at hr
  obtain ⟨⟨es, n⟩, hm, hr⟩ := hr
  cases hr
  exact ⟨A', T', lens, es, ⟨h1, h2, h3, h4, h5, h6, hm, rfl, rfl⟩⟩

end Xdvdfs
