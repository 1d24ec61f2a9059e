import Verif.Proof.TableScan
import Verif.Props.Avl

/-! # Everything about a written table, in terms of the items it was built from -/

namespace Xdvdfs

open TabWriter Spec ITree

/-- Name, recorded size and kind. -/
def itemKey (it : Item) : Str × Nat × Bool := (it.name, it.storedSize, it.isDir)
def listKey (l : Listing) : Str × Nat × Bool := (l.name, l.size, l.isDir)

theorem secs_eq_sectorsFor (n : Nat) : secs n = sectorsFor n := by
  unfold secs sectorsFor; split <;> omega

theorem allocChain_consecutive : ∀ {ls : List Listing} {s e : Nat}, AllocChain s ls e ↔ Consecutive s ls e := by
  intro ls
  induction ls with
  | nil => intro s e; exact Iff.rfl
  | cons l ls ih => intro s e; simp only [AllocChain, Consecutive, ih, secs_eq_sectorsFor]

theorem buildTable_inv {items : List Item} {w : TabWriter} (hb : buildTable items = .ok w) :
    ∃ (w0 : TabWriter) (T : ITree DirData), WInv w0 items T ∧ w0.computeSize = .ok w ∧ w.table = w0.table := by
  unfold buildTable at hb
  rw [Res.bind_eq_ok] at hb
  obtain ⟨w0, h1, h2⟩ := hb
  obtain ⟨T, hT⟩ := addItems_ok WInv.new h1
  exact ⟨w0, T, by simpa using hT, h2, (computeSize_ok hT.wf h2).1⟩

theorem itemData_attrs (it : Item) : (itemData it).node.attrs = 16 ∨ (itemData it).node.attrs = 32 := by
  simp only [itemData, Item.attrs]; split <;> simp

theorem attrsOK_of_perm {ds : List DirData} {items : List Item} (h : ds.Perm (items.map itemData)) :
    AttrsOK ds := by
  intro d hd
  obtain ⟨it, _, rfl⟩ := List.mem_map.1 (h.mem_iff.1 hd)
  exact itemData_attrs it

theorem buildTable_nil {w : TabWriter} (hb : buildTable [] = .ok w) : w.table.tree = [] ∧ w.size = some 0 := by
  have : buildTable [] = .ok { table := Avl.empty, size := some 0 } := rfl
  rw [this] at hb; cases hb; exact ⟨rfl, rfl⟩

theorem table_written {items : List Item} {w : TabWriter} (hb : buildTable items = .ok w)
    {next next' : Nat} {r : DiskRepr} (hr : w.diskRepr next = .ok (r, next')) :
    DistinctNames (items.map Item.name) ∧
    ((items = [] ∧ r = ⟨List.replicate 2048 0xff, []⟩ ∧ next' = next ∧ w.dirtabSize = .ok 2048) ∨
     (items ≠ [] ∧ ∃ A' T' lens es, Written w next r next' A' T' lens es ∧ A'.tree ≠ [] ∧
      (A'.tree.map AvlNode.data).Perm (items.map itemData) ∧
      (∀ it ∈ items, it.storedSize < 2 ^ 32) ∧
      w.dirtabSize = .ok (total 0 lens))) := by
  obtain ⟨w0, T, hI, hc, ht⟩ := buildTable_inv hb
  refine ⟨?_, ?_⟩
  · unfold DistinctNames
    rw [List.pairwise_map]
    refine hI.distinct.imp ?_
    intro a b h h'
    exact h ((cmp_eq_iff _ _).2 h'.symm)
  by_cases hi : items = []
  · left
    subst hi
    obtain ⟨h1, h2⟩ := buildTable_nil hb
    unfold diskRepr at hr
    rw [if_pos h1] at hr
    cases hr
    exact ⟨rfl, rfl, rfl, by unfold dirtabSize; rw [if_pos h1]⟩
  · right
    have hlen : w.table.tree.length = items.length := by
      have := congrArg List.length hI.data
      simpa [ht] using this
    have hne : w.table.tree ≠ [] := by
      intro h; rw [h] at hlen; simp at hlen; exact hi (by simpa using hlen.symm)
    obtain ⟨A', T', lens, es, W⟩ := diskRepr_ok hI.wf hc hne hr
    have hp := W.perm
    rw [ht, hI.data] at hp
    refine ⟨hi, A', T', lens, es, W, ?_, hp, hI.small, ?_⟩
    · intro h
      have := hp.length_eq
      rw [h] at this; simp at this; exact hi (by simpa using this.symm)
    · unfold dirtabSize; rw [if_neg hne, W.size]; rfl

theorem readDirent_offset {dev : Dev} {o : Nat} {d : DirEnt} (h : readDirent dev o = .ok (some d)) :
    d.offset = o := by
  unfold readDirent at h
  rw [Res.bind_eq_ok] at h
  obtain ⟨b, _, h⟩ := h
  split at h
  · cases h
  · rw [Res.bind_eq_ok] at h
    obtain ⟨n, _, h⟩ := h
    cases h; rfl

/-- The reader's view of a written, non-empty table. -/
structure TabTree (dev : Dev) (tab : Region) (items : List Item) (r : DiskRepr) (sz : Nat)
    (t : BT DirEnt) : Prop where
  rooted : Rooted dev tab t
  sorted : NameSorted t.inorder
  size : t.size = items.length
  bal : t.Balanced
  listing : (t.inorder.map summary).Perm r.fileListing
  attrs : ∀ d ∈ t.inorder, d.node.dirent.attrs = (if (summary d).isDir then 16 else 32)
  layout : ∀ d ∈ t.inorder, ∃ o, d.offset = 2048 * tab.sector.toNat + o ∧ o % 4 = 0 ∧
    o % 2048 + entryLen d ≤ 2048 ∧ o + entryLen d ≤ sz
  apart : t.inorder.Pairwise Apart
  last : ∃ d ∈ t.inorder, d.offset + entryLen d = 2048 * tab.sector.toNat + sz

theorem ITree.toBT_balanced (f : Nat → β) {t : ITree α} (h : t.erase.Balanced) :
    (t.toBT f).Balanced := by
  induction t with
  | nil => trivial
  | node i hh d l r ihl ihr =>
    simp only [ITree.erase, BT.Balanced] at h
    simp only [ITree.toBT, BT.Balanced, toBT_height]
    exact ⟨h.1, h.2.1, ihl h.2.2.1, ihr h.2.2.2⟩

theorem elen_eq_entryLen {d : DirEnt} {e : Ent} (hn : d.name = e.name) (hb : e.name.length ≤ 255) :
    entryLen d = e.len := by
  have := elen_spec hb
  unfold entryLen Ent.len
  rw [hn]; omega

/-- The entry at index `i`, as read. -/
theorem Written.dirent_at {w : TabWriter} {next next' : Nat} {r : DiskRepr} {A' : Avl DirData}
    {T' : ITree DirData} {lens : List Nat} {es : List (Ent × Listing)}
    (W : Written w next r next' A' T' lens es) (base : Nat) {i : Nat} (hi : i < es.length) :
    ∃ n e l o, A'.tree[i]? = some n ∧ es[i]? = some (e, l) ∧ EntOf (offs 0 lens) n e l ∧
      (offs 0 lens)[i]? = some o ∧ lens[i]? = some e.len ∧
      direntAt base es (offs 0 lens) i = { node := e.node, name := e.name, offset := base + o } ∧
      e.name.length ≤ 255 := by
  have hl : A'.tree[i]? = some (A'.tree[i]'(by rw [← W.facts.2.1]; exact hi)) :=
    List.getElem?_eq_getElem _
  generalize A'.tree[i]'(by rw [← W.facts.2.1]; exact hi) = n at hl
  obtain ⟨e, l, o, he, hent, ho, hlen, _⟩ := W.at hl
  exact ⟨n, e, l, o, hl, he, hent, ho, hlen, by simp [direntAt, he, ho], encodeName_len hent.name⟩

theorem summary_of_entOf {offsets : List Nat} {n : AvlNode DirData} {e : Ent} {l : Listing}
    (h : EntOf offsets n e l) (o : Nat) :
    summary { node := e.node, name := e.name, offset := o } = l := by
  have h1 : (DirEnt.mk e.node e.name o).nameStr = l.name := by
    rw [h.lname]; exact encodeName_decode h.name
  have h2 : e.node.dirent.data.sector.toNat = l.sector := by
    rw [h.dirent]; have := h.lsector; simp; omega
  have h3 : e.node.dirent.data.size.toNat = l.size := by rw [h.dirent, h.lsize]
  have h4 : e.node.dirent.isDirectory = l.isDir := by
    rw [h.lisDir, DiskData.isDirectory, h.dirent]
  unfold summary
  simp only [h1, h2, h3, h4]

theorem Written.tree {w : TabWriter} {next next' : Nat} {r : DiskRepr} {A' : Avl DirData}
    {T' : ITree DirData} {lens : List Nat} {es : List (Ent × Listing)}
    (W : Written w next r next' A' T' lens es) {dev : Dev} {tab : Region} {items : List Item}
    (hd : HoldsAt dev (2048 * tab.sector.toNat) r.entryTable) (hne : A'.tree ≠ [])
    (hp : (A'.tree.map AvlNode.data).Perm (items.map itemData))
    (hsz : total 0 lens ≤ tab.size.toNat) :
    TabTree dev tab items r (total 0 lens)
      (T'.toBT (direntAt (2048 * tab.sector.toNat) es (offs 0 lens))) := by
  have ha := attrsOK_of_perm hp
  obtain ⟨f1, f2, f3, f4, f5, f6⟩ := W.facts
  have hperm := W.inorder_perm (2048 * tab.sector.toNat)
  have hex : ∀ d ∈ (T'.toBT (direntAt (2048 * tab.sector.toNat) es (offs 0 lens))).inorder,
      ∃ i, i < es.length ∧ d = direntAt (2048 * tab.sector.toNat) es (offs 0 lens) i := by
    intro d hm
    obtain ⟨i, hi, rfl⟩ := List.mem_map.1 (hperm.mem_iff.1 hm)
    exact ⟨i, List.mem_range.1 hi, rfl⟩
  refine ⟨W.rooted hd hne ha hsz, W.sorted _, ?_, ?_, ?_, ?_, ?_, ?_, ?_⟩
  · rw [toBT_size, W.idx, List.length_range]
    have := hp.length_eq
    simpa using this
  · exact toBT_balanced _ (Props.balanced_of_bal W.wf.bal)
  · rw [W.listing]
    refine (hperm.map summary).trans (List.Perm.of_eq ?_)
    rw [List.map_map]
    apply List.ext_getElem
    · simp
    · intro i h1 h2
      simp at h1
      obtain ⟨n, e, l, o, g1, g2, g3, g4, g5, g6, g7⟩ := W.dirent_at (2048 * tab.sector.toNat) h1
      have : es[i] = (e, l) := by
        rw [List.getElem?_eq_getElem h1] at g2; exact Option.some.inj g2
      simp [g6, this, summary_of_entOf g3]
  · intro d hm
    obtain ⟨i, hi, rfl⟩ := hex d hm
    obtain ⟨n, e, l, o, g1, g2, g3, g4, g5, g6, g7⟩ := W.dirent_at (2048 * tab.sector.toNat) hi
    rw [g6]
    have hat := ha n.data (List.mem_map_of_mem (List.mem_of_getElem? g1))
    have h1 : e.node.dirent.attrs = n.data.node.attrs := by rw [g3.dirent]
    simp only [summary, DiskData.isDirectory, h1]
    rcases hat with h | h <;> rw [h] <;> rfl
  · intro d hm
    obtain ⟨i, hi, rfl⟩ := hex d hm
    obtain ⟨n, e, l, o, g1, g2, g3, g4, g5, g6, g7⟩ := W.dirent_at (2048 * tab.sector.toNat) hi
    obtain ⟨e', l', o', k1, k2, k3, k4, k5, k6, k7, _⟩ := W.at g1
    rw [g2] at k1; cases k1
    rw [g4] at k3; cases k3
    have hel : entryLen (direntAt (2048 * tab.sector.toNat) es (offs 0 lens) i) = e.len :=
      elen_eq_entryLen (by rw [g6]) g7
    refine ⟨o, by rw [g6], k5, ?_, ?_⟩ <;> omega
  · have hsym : ∀ {x y : DirEnt}, Apart x y → Apart y x := fun h => h.symm
    refine (hperm.symm.pairwise ?_ hsym)
    rw [List.pairwise_map]
    refine (List.pairwise_lt_range (n := es.length)).imp_of_mem ?_
    intro i j hi hj hij
    obtain ⟨n, e, l, o, g1, g2, g3, g4, g5, g6, g7⟩ :=
      W.dirent_at (2048 * tab.sector.toNat) (List.mem_range.1 hi)
    obtain ⟨n', e', l', o', g1', g2', g3', g4', g5', g6', g7'⟩ :=
      W.dirent_at (2048 * tab.sector.toNat) (List.mem_range.1 hj)
    left
    have := offs_disjoint lens 0 i j o o' e.len hij g4 g4' g5
    have hel : entryLen (direntAt (2048 * tab.sector.toNat) es (offs 0 lens) i) = e.len :=
      elen_eq_entryLen (by rw [g6]) g7
    rw [hel, g6, g6']; simp only; omega
  · have hpos : 0 < es.length := by rw [f2]; exact List.length_pos_iff.2 hne
    obtain ⟨n, e, l, o, g1, g2, g3, g4, g5, g6, g7⟩ :=
      W.dirent_at (2048 * tab.sector.toNat) (i := es.length - 1) (by omega)
    refine ⟨direntAt (2048 * tab.sector.toNat) es (offs 0 lens) (es.length - 1), ?_, ?_⟩
    · rw [hperm.mem_iff]; exact List.mem_map_of_mem (List.mem_range.2 (by omega))
    · have hel : entryLen (direntAt (2048 * tab.sector.toNat) es (offs 0 lens) (es.length - 1)) = e.len :=
        elen_eq_entryLen (by rw [g6]) g7
      have hlast : o + e.len = total 0 lens := by
        refine offs_last lens 0 o e.len ?_ ?_
        · rw [f1, ← f2]; exact g4
        · rw [f1, ← f2]; exact g5
      rw [hel, g6]; simp only; omega

end Xdvdfs

namespace Xdvdfs

open TabWriter Spec ITree

/-- Name, recorded size and kind of a tree element. -/
def dataKey (d : DirData) : Str × Nat × Bool := (d.name, d.node.data.size.toNat, d.node.attrs &&& 0x10 != 0)

theorem dataKey_itemData {it : Item} (h : it.storedSize < 2 ^ 32) : dataKey (itemData it) = itemKey it := by
  unfold dataKey itemKey itemData
  refine Prod.ext rfl (Prod.ext ?_ ?_)
  · simp; omega
  · simp only [Item.attrs]; cases it.isDir <;> rfl

theorem Written.keys {w : TabWriter} {next next' : Nat} {r : DiskRepr} {A' : Avl DirData}
    {T' : ITree DirData} {lens : List Nat} {es : List (Ent × Listing)}
    (W : Written w next r next' A' T' lens es) {items : List Item}
    (hp : (A'.tree.map AvlNode.data).Perm (items.map itemData))
    (hs : ∀ it ∈ items, it.storedSize < 2 ^ 32) :
    (r.fileListing.map listKey).Perm (items.map itemKey) := by
  have h1 : r.fileListing.map listKey = (A'.tree.map AvlNode.data).map dataKey := by
    rw [W.listing, List.map_map, List.map_map]
    apply List.ext_getElem
    · simp [W.facts.2.1]
    · intro i h1 h2
      simp at h1
      obtain ⟨n, e, l, o, g1, g2, g3, g4, g5, g6, g7⟩ := W.dirent_at 0 h1
      have e1 : es[i] = (e, l) := by
        rw [List.getElem?_eq_getElem h1] at g2; exact Option.some.inj g2
      have hlt : i < A'.tree.length := by rw [← W.facts.2.1]; exact h1
      have e2 : A'.tree[i] = n := by
        rw [List.getElem?_eq_getElem hlt] at g1; exact Option.some.inj g1
      simp [e1, e2, listKey, dataKey, g3.lname, g3.lsize, g3.lisDir]
  rw [h1]
  refine (hp.map dataKey).trans (List.Perm.of_eq ?_)
  rw [List.map_map]
  apply List.map_congr_left
  intro it hit
  exact dataKey_itemData (hs it hit)

/-- The listing of a written table. -/
theorem table_listing {items : List Item} {w : TabWriter} (hb : buildTable items = .ok w)
    {next next' : Nat} {r : DiskRepr} (hr : w.diskRepr next = .ok (r, next')) :
    (r.fileListing.map listKey).Perm (items.map itemKey) ∧ Consecutive next r.fileListing next' ∧
      (items ≠ [] → next' < 2 ^ 32) := by
  obtain ⟨_, ⟨h1, h2, h3, h4⟩ | ⟨h1, A', T', lens, es, W, hne, hp, hs, hd⟩⟩ := table_written hb hr
  · subst h1 h2 h3
    exact ⟨.refl _, rfl, fun h => absurd rfl h⟩
  · obtain ⟨k1, k2, k3, k4⟩ := mkEnts_spec W.ents
    refine ⟨W.keys hp hs, ?_, fun _ => k3 hne⟩
    rw [W.listing]; exact allocChain_consecutive.1 k2

/-- The reader's view of a placed, non-empty table. -/
theorem placed_tree {items : List Item} {w : TabWriter} (hb : buildTable items = .ok w)
    {next next' : Nat} {r : DiskRepr} (hr : w.diskRepr next = .ok (r, next')) (hne : items ≠ [])
    {dev : Dev} {tab : Region} (hP : Placed dev tab w r) {sz : Nat} (hsz : w.dirtabSize = .ok sz) :
    ∃ t, TabTree dev tab items r sz t := by
  obtain ⟨_, ⟨h1, _⟩ | ⟨h1, A', T', lens, es, W, hne', hp, hs, hd⟩⟩ := table_written hb hr
  · exact absurd h1 hne
  · obtain ⟨hh, sz', e1, e2, e3⟩ := hP
    rw [hd] at e1 hsz
    cases e1; cases hsz
    exact ⟨_, W.tree hh hne' hp e2⟩

/-- An empty table reads as having no root entry. -/
theorem placed_empty {w : TabWriter} (hb : buildTable [] = .ok w)
    {next next' : Nat} {r : DiskRepr} (hr : w.diskRepr next = .ok (r, next'))
    {dev : Dev} {tab : Region} (hP : Placed dev tab w r) :
    tab.size.toNat = 2048 ∧ HoldsAt dev (2048 * tab.sector.toNat) (List.replicate 2048 0xff) ∧
      readDirent dev (2048 * tab.sector.toNat) = .ok none := by
  obtain ⟨_, ⟨h1, h2, h3, h4⟩ | ⟨h1, _⟩⟩ := table_written hb hr
  · obtain ⟨hh, sz', e1, e2, e3⟩ := hP
    rw [h4] at e1; cases e1
    rw [h2] at hh
    refine ⟨?_, hh, ?_⟩
    · unfold roundUp at e3; omega
    · have := hh 0 14 (by rw [List.length_replicate]; omega)
      unfold readDirent
      rw [Nat.add_zero] at this
      rw [this]
      have hs : slice (List.replicate 2048 (0xff : UInt8)) 0 14 = List.replicate 14 0xff := by
        rw [slice, List.drop_zero, List.take_replicate]
        rfl
      simp only [hs, Res.ok_bind]
      have : deserDirentNode (List.replicate 14 0xff) = none := by
        unfold deserDirentNode; rw [if_pos (.inl rfl)]
      rw [this]; rfl
  · exact absurd rfl h1

end Xdvdfs
