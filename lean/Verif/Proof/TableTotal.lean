import Verif.Proof.Tables
import Verif.Props.Names

/-!
# Outcomes of building and serializing a table
-/

namespace Xdvdfs

open TabWriter Spec

theorem BT.preorder_perm (t : BT α) : t.preorder.Perm t.inorder := by
  induction t with
  | nil => exact .refl _
  | node l d r ihl ihr =>
    simp only [BT.preorder, BT.inorder]
    refine ((List.Perm.append ihl ihr).cons d).trans ?_
    exact (List.perm_middle).symm

theorem ITree.erase_inorder (t : ITree α) : t.erase.inorder = t.inord.map Prod.snd := by
  induction t with
  | nil => rfl
  | node i h d l r ihl ihr => simp [ITree.erase, BT.inorder, ITree.inord, ihl, ihr]

theorem lensOnDisk_names : ∀ {ns : List (AvlNode DirData)} {ls : List Nat}, lensOnDisk ns = .ok ls →
    ∀ n ∈ ns, ∃ b, encodeName n.data.name = .ok b := by
  intro ns
  induction ns with
  | nil => simp
  | cons n ns ih =>
    intro ls h
    simp only [lensOnDisk, Res.bind_eq_ok] at h
    obtain ⟨l, hl, ls', hls, _⟩ := h
    intro m hm
    rcases List.mem_cons.1 hm with rfl | hm
    · obtain ⟨b, hb, _⟩ := lenOnDisk_ok hl; exact ⟨b, hb⟩
    · exact ih hls m hm

/-- The data stored in a tree, in pre-order, is a permutation of the items. -/
theorem WInv.preorder_perm {w : TabWriter} {items : List Item} {T : ITree DirData} (h : WInv w items T) :
    T.erase.preorder.Perm (items.map itemData) := by
  refine (BT.preorder_perm _).trans ?_
  rw [ITree.erase_inorder, ← h.data]
  exact h.wf.data_perm

theorem encodeName_iff (name : Str) :
    (∃ b, encodeName name = .ok b) ↔ (∀ c ∈ name, InCp1252 c) ∧ name.length ≤ 255 := by
  obtain ⟨h1, h2⟩ := C03_name_encoding_fails_iff name
  constructor
  · rintro ⟨b, hb⟩
    rw [hb] at h2
    have h3 : ¬ ((∃ c ∈ name, ¬ InCp1252 c) ∨ 255 < name.length) := fun h => by
      have := h2.2 h; cases this
    refine ⟨fun c hc => ?_, ?_⟩
    · exact Classical.byContradiction (fun hn => h3 (.inl ⟨c, hc, hn⟩))
    · exact Nat.le_of_not_lt (fun hn => h3 (.inr hn))
  · rintro ⟨k1, k2⟩
    rcases h1 with h1 | h1
    · exact h1
    · rcases h2.1 h1 with ⟨c, hc, hn⟩ | hn
      · exact absurd (k1 c hc) hn
      · omega

theorem utf8Len_ge (s : Str) : s.length ≤ utf8Len s := by
  unfold utf8Len
  induction s with
  | nil => simp
  | cons c s ih =>
    have := c.utf8Size_pos
    simp only [List.map_cons, List.sum_cons, List.length_cons]; omega

/-- The names in a successfully built table are short and encodable. -/
theorem buildTable_names {items : List Item} {w : TabWriter} (hb : buildTable items = .ok w) :
    ∀ it ∈ items, utf8Len it.name ≤ 255 ∧ ∀ c ∈ it.name, InCp1252 c := by
  obtain ⟨w0, T, hI, hc, ht⟩ := buildTable_inv hb
  obtain ⟨_, lens, h1, _, _⟩ := computeSize_ok hI.wf hc
  intro it hit
  refine ⟨hI.short it hit, ?_⟩
  obtain ⟨ns, _, h3⟩ := Rep.nodes hI.wf.zip.rep
  have h4 := h1 ns h3
  have h5 : itemData it ∈ ns.map AvlNode.data := by
    rw [h3]; exact hI.preorder_perm.mem_iff.2 (List.mem_map_of_mem hit)
  obtain ⟨n, hn, he⟩ := List.mem_map.1 h5
  have h6 := lensOnDisk_names h4 n hn
  rw [he] at h6
  exact ((encodeName_iff _).1 h6).1

/-! ## Building -/

theorem addItems_cases : ∀ {its : List Item} {w : TabWriter} {done : List Item}
    {T : ITree DirData}, WInv w done T → (∀ it ∈ its, it.storedSize < 2 ^ 32) →
    (∃ w' T', addItems w its = .ok w' ∧ WInv w' (done ++ its) T') ∨ (∃ e, addItems w its = .err e) := by
  intro its
  induction its with
  | nil => intro w done T h _; exact .inl ⟨w, T, rfl, by simpa using h⟩
  | cons it its ih =>
    intro w done T h hs
    simp only [addItems]
    rcases addItem_spec h it with ⟨w2, T2, h1, h2, _⟩ | ⟨h1, _⟩ | ⟨h1, _⟩ | ⟨h1, h2⟩
    · rw [h1, Res.ok_bind]
      rcases ih h2 (fun x hx => hs x (by simp [hx])) with ⟨w', T', h3, h4⟩ | h3
      · exact .inl ⟨w', T', h3, by simpa using h4⟩
      · exact .inr h3
    · exact .inr ⟨_, by rw [h1]; rfl⟩
    · exact .inr ⟨_, by rw [h1]; rfl⟩
    · have := hs it (by simp); omega

theorem addItems_succeeds : ∀ {its : List Item} {w : TabWriter} {done : List Item}
    {T : ITree DirData}, WInv w done T → (∀ it ∈ its, it.storedSize < 2 ^ 32) →
    (∀ it ∈ its, utf8Len it.name ≤ 255) → DistinctNames ((done ++ its).map Item.name) →
    ∃ w' T', addItems w its = .ok w' ∧ WInv w' (done ++ its) T' := by
  intro its
  induction its with
  | nil => intro w done T h _ _ _; exact ⟨w, T, rfl, by simpa using h⟩
  | cons it its ih =>
    intro w done T h hs hn hd
    simp only [addItems]
    rcases addItem_spec h it with ⟨w2, T2, h1, h2, _⟩ | ⟨h1, h2⟩ | ⟨h1, y, hy, hc⟩ | ⟨h1, h2⟩
    · rw [h1, Res.ok_bind]
      obtain ⟨w', T', h3, h4⟩ := ih h2 (fun x hx => hs x (by simp [hx])) (fun x hx => hn x (by simp [hx]))
        (by simpa using hd)
      exact ⟨w', T', h3, by simpa using h4⟩
    · have := hn it (by simp); omega
    · unfold DistinctNames at hd
      rw [List.map_append, List.pairwise_append] at hd
      have := hd.2.2 y.name (List.mem_map_of_mem hy) it.name (by simp)
      exact absurd ((cmp_eq_iff _ _).1 hc).symm this
    · have := hs it (by simp); omega

theorem pad_lt (pos l : Nat) (hl : 0 < l) : pad pos l < l := by
  unfold pad
  split
  · next h =>
    unfold secs at h
    rw [if_neg (by omega), if_neg (by omega)] at h
    omega
  · exact hl

theorem sizeLoop_cases {A : Avl DirData} : ∀ (is : List Nat) (ns : List (AvlNode DirData)) (acc : Nat),
    is.map (fun i => A.tree[i]?) = ns.map some → acc + 544 * is.length < 2 ^ 32 →
    (∃ s, sizeLoop A is acc = .ok s ∧ s ≤ acc + 544 * is.length) ∨
    (sizeLoop A is acc = .err .stringEncoding ∧ ∃ n ∈ ns, ∀ b, encodeName n.data.name ≠ .ok b) := by
  intro is
  induction is with
  | nil => intro ns acc _ _; exact .inl ⟨acc, rfl, by simp⟩
  | cons i is ih =>
    intro ns acc hmap hb
    cases ns with
    | nil => simp at hmap
    | cons n ns =>
      simp only [List.map_cons, List.cons.injEq] at hmap
      obtain ⟨hi, hmap⟩ := hmap
      simp only [sizeLoop, Avl.get, hi, Res.unwrap_some, Res.ok_bind]
      simp only [List.length_cons] at hb ⊢
      rcases (C03_name_encoding_fails_iff n.data.name).1 with ⟨b, hb'⟩ | hb'
      · have hl := lenOnDisk_eq hb'
        have hl' := lenOnDisk_spec hl
        rw [hl, Res.ok_bind, sectorAlign_ok (by omega), Res.ok_bind]
        have hp := pad_lt acc (elen b.length) (by omega)
        rw [if_pos (by omega)]
        rcases ih ns (acc + elen b.length + pad acc (elen b.length)) hmap (by omega) with ⟨s, h1, h2⟩ | ⟨h1, m, hm, h2⟩
        · exact .inl ⟨s, h1, by omega⟩
        · exact .inr ⟨h1, m, by simp [hm], h2⟩
      · right
        refine ⟨?_, n, by simp, fun b h => by rw [hb'] at h; cases h⟩
        unfold lenOnDisk
        rw [hb']; rfl

theorem WInv.length {w : TabWriter} {items : List Item} {T : ITree DirData} (h : WInv w items T) :
    T.idxs.length = items.length := by
  rw [h.wf.perm.length_eq, List.length_range]
  have := congrArg List.length h.data
  simpa using this

theorem computeSize_cases {w : TabWriter} {items : List Item} {T : ITree DirData} (h : WInv w items T)
    (hb : 544 * items.length < 2 ^ 32) :
    (∃ s, w.computeSize = .ok { w with size := some s } ∧ s ≤ 544 * items.length) ∨
    (w.computeSize = .err .stringEncoding ∧ ∃ it ∈ items, ∀ b, encodeName it.name ≠ .ok b) := by
  obtain ⟨ns, h1, h2⟩ := Rep.nodes h.wf.zip.rep
  unfold computeSize
  rw [Avl.preorder_spec h.wf]
  simp only [Res.ok_bind]
  rw [← h.length] at hb ⊢
  rcases sizeLoop_cases _ ns 0 h1 (by omega) with ⟨s, h3, h4⟩ | ⟨h3, n, hn, h4⟩
  · exact .inl ⟨s, by rw [h3]; rfl, by omega⟩
  · right
    refine ⟨by rw [h3]; rfl, ?_⟩
    have : n.data ∈ items.map itemData := h.preorder_perm.mem_iff.1 (by rw [← h2]; exact List.mem_map_of_mem hn)
    obtain ⟨it, hit, he⟩ := List.mem_map.1 this
    refine ⟨it, hit, ?_⟩
    rw [← he] at h4; exact h4

/-- Building a table gives a table or an error. -/
theorem buildTable_cases {items : List Item} (hs : ∀ it ∈ items, it.storedSize < 2 ^ 32)
    (hb : 544 * items.length < 2 ^ 32) :
    (∃ w, buildTable items = .ok w) ∨ ∃ e, buildTable items = .err e := by
  unfold buildTable
  rcases addItems_cases WInv.new hs with ⟨w', T', h1, h2⟩ | ⟨e, h1⟩
  · rw [h1, Res.ok_bind]
    rcases computeSize_cases h2 (by simpa using hb) with ⟨s, h3, _⟩ | ⟨h3, _⟩
    · exact .inl ⟨_, h3⟩
    · exact .inr ⟨_, h3⟩
  · exact .inr ⟨e, by rw [h1]; rfl⟩

theorem buildTable_succeeds {items : List Item} (hs : ∀ it ∈ items, it.storedSize < 2 ^ 32)
    (hb : 544 * items.length < 2 ^ 32) (hn : ∀ it ∈ items, utf8Len it.name ≤ 255 ∧ ∀ c ∈ it.name, InCp1252 c)
    (hd : DistinctNames (items.map Item.name)) : ∃ w, buildTable items = .ok w := by
  unfold buildTable
  obtain ⟨w', T', h1, h2⟩ := addItems_succeeds WInv.new hs (fun it hit => (hn it hit).1) (by simpa using hd)
  rw [h1, Res.ok_bind]
  rcases computeSize_cases h2 (by simpa using hb) with ⟨s, h3, _⟩ | ⟨h3, it, hit, h4⟩
  · exact ⟨_, h3⟩
  · have hit' : it ∈ items := by simpa using hit
    obtain ⟨b, hb⟩ := (encodeName_iff it.name).2 ⟨(hn it hit').2, Nat.le_trans (utf8Len_ge _) (hn it hit').1⟩
    exact absurd hb (h4 b)

theorem buildTable_size_le {items : List Item} {w : TabWriter} (hb : buildTable items = .ok w)
    (hl : 544 * items.length < 2 ^ 32) :
    ∃ n, w.dirtabSize = .ok n ∧ n ≤ 2048 + 544 * (items.length - 1) ∧ (n ≤ 544 * items.length ∨ n = 2048) := by
  obtain ⟨w0, T, hI, hc, ht⟩ := buildTable_inv hb
  have hlen : w.table.tree.length = items.length := by
    have := congrArg List.length hI.data
    simpa [ht] using this
  unfold dirtabSize
  by_cases h : w.table.tree = []
  · exact ⟨2048, by rw [if_pos h], by omega, .inr rfl⟩
  · rw [if_neg h]
    rcases computeSize_cases hI hl with ⟨s, h3, h4⟩ | ⟨h3, _⟩
    · rw [hc] at h3; cases h3
      have : 0 < items.length := by
        rw [← hlen]; exact List.length_pos_iff.2 h
      exact ⟨s, rfl, by omega, .inl h4⟩
    · rw [hc] at h3; cases h3

/-! ## Serializing -/

theorem ptr_mem {t : ITree α} {c : Nat} (h : t.ptr = some c) : c ∈ t.idxs := by
  cases t with
  | nil => cases h
  | node i _ _ l r => cases h; simp [ITree.idxs]

theorem Rep.children {tr : List (AvlNode α)} {p : Option Nat} {T : ITree α} (h : ITree.Rep tr p T) :
    ∀ i ∈ T.idxs, ∀ n, tr[i]? = some n → ∀ c, n.left = some c ∨ n.right = some c → c ∈ T.idxs := by
  induction T generalizing p with
  | nil => simp [ITree.idxs]
  | node i hh d l r ihl ihr =>
    obtain ⟨h1, h2, h3⟩ := h
    intro j hj n hn c hc
    simp only [ITree.idxs, List.mem_cons, List.mem_append] at hj ⊢
    rcases hj with rfl | hj | hj
    · rw [h1] at hn
      cases hn
      rcases hc with hc | hc
      · exact .inr (.inl (ptr_mem hc))
      · exact .inr (.inr (ptr_mem hc))
    · exact .inr (.inl (ihl h2 j hj n hn c hc))
    · exact .inr (.inr (ihr h3 j hj n hn c hc))

theorem linkOf_cases {offsets : List Nat} {p : Option Nat} (h : ∀ c, p = some c → c < offsets.length) :
    (∃ l, linkOf offsets p = .ok l) ∨
    (linkOf offsets p = .err .tooManyEntries ∧ ∃ o ∈ offsets, 262144 ≤ o) := by
  cases p with
  | none => exact .inl ⟨0, rfl⟩
  | some c =>
    have hc := h c rfl
    simp only [linkOf, Avl.vget, List.getElem?_eq_getElem hc, Res.unwrap_some, Res.ok_bind]
    split
    · exact .inl ⟨_, rfl⟩
    · exact .inr ⟨rfl, offsets[c], List.getElem_mem _, by omega⟩

/-- Sectors needed for the data of a list of nodes. -/
def nodeSectors (ns : List (AvlNode DirData)) : Nat :=
  (ns.map (fun n => secs n.data.node.data.size.toNat)).sum

theorem mkEnts_cases {offsets : List Nat} : ∀ {ns : List (AvlNode DirData)} {next : Nat},
    (∀ n ∈ ns, ∃ b, encodeName n.data.name = .ok b) →
    (∀ n ∈ ns, ∀ c, n.left = some c ∨ n.right = some c → c < offsets.length) →
    next + nodeSectors ns < 2 ^ 32 →
    (∃ es, mkEnts offsets ns next = .ok (es, next + nodeSectors ns)) ∨
    (mkEnts offsets ns next = .err .tooManyEntries ∧ ∃ o ∈ offsets, 262144 ≤ o) := by
  intro ns
  induction ns with
  | nil => intro next _ _ _; exact .inl ⟨[], rfl⟩
  | cons n ns ih =>
    intro next hn hc hs
    obtain ⟨b, hb⟩ := hn n (by simp)
    simp only [nodeSectors, List.map_cons, List.sum_cons] at hs ⊢
    simp only [mkEnts, hb, Res.ok_bind]
    rcases linkOf_cases (fun c h => hc n (by simp) c (.inl h)) with ⟨l, hl⟩ | ⟨hl, ho⟩
    · rw [hl, Res.ok_bind]
      rcases linkOf_cases (fun c h => hc n (by simp) c (.inr h)) with ⟨r, hr⟩ | ⟨hr, ho⟩
      · rw [hr, Res.ok_bind, allocate_ok (by omega), Res.ok_bind]
        rcases ih (next := next + secs n.data.node.data.size.toNat) (fun m hm => hn m (by simp [hm]))
          (fun m hm => hc m (by simp [hm])) (by unfold nodeSectors; omega) with ⟨es, he⟩ | ⟨he, ho⟩
        · left
          simp only [he, Res.ok_bind]
          exact ⟨_, by simp [nodeSectors, Nat.add_assoc]; rfl⟩
        · right
          simp only [he]
          exact ⟨rfl, ho⟩
      · right; rw [hr]; exact ⟨rfl, ho⟩
    · right; rw [hl]; exact ⟨rfl, ho⟩

/-- Sectors needed for the data of the items of a table. -/
def itemSectors (items : List Item) : Nat := (items.map (fun it => secs it.storedSize)).sum

theorem List.Perm.sum_nat {a b : List Nat} (h : a.Perm b) : a.sum = b.sum := by
  induction h with
  | nil => rfl
  | cons x _ ih => simp [ih]
  | swap x y l => simp; omega
  | trans _ _ h1 h2 => rw [h1, h2]

theorem offs_lt_total : ∀ {ls : List Nat} {pos : Nat}, (∀ l ∈ ls, 0 < l) → ∀ o ∈ offs pos ls, o < total pos ls := by
  intro ls
  induction ls with
  | nil => intro pos _ o h; simp [offs] at h
  | cons l ls ih =>
    intro pos hl o h
    simp only [offs, List.mem_cons] at h
    simp only [total]
    have h1 := le_total (place pos l + l) ls
    have := hl l (by simp)
    rcases h with rfl | h
    · omega
    · exact ih (fun x hx => hl x (by simp [hx])) o h

/-- Serializing a table gives a table, or `TooManyEntries` for a table above 256 KiB. -/
theorem diskRepr_cases {items : List Item} {w : TabWriter} (hb : buildTable items = .ok w) {next : Nat}
    (hs : next + itemSectors items < 2 ^ 32) :
    (∃ r, w.diskRepr next = .ok (r, next + itemSectors items)) ∨
    (w.diskRepr next = .err .tooManyEntries ∧ ∃ n, w.dirtabSize = .ok n ∧ 262144 < n) := by
  obtain ⟨w0, T, hI, hc, ht⟩ := buildTable_inv hb
  have hlen : w.table.tree.length = items.length := by
    have := congrArg List.length hI.data
    simpa [ht] using this
  by_cases hne : w.table.tree = []
  · left
    have : items = [] := by
      rw [hne] at hlen; exact List.eq_nil_of_length_eq_zero (by simpa using hlen.symm)
    subst this
    exact ⟨_, by unfold diskRepr; rw [if_pos hne]; rfl⟩
  · obtain ⟨A', T', lens, h1, h2, h3, h4, h5, h6, h7⟩ := diskRepr_eq hI.wf hc hne
    rw [h7]
    obtain ⟨hl1, hl2⟩ := lensOnDisk_forall h4
    have hsec : nodeSectors A'.tree = itemSectors items := by
      have hp : (A'.tree.map AvlNode.data).Perm (items.map itemData) := by
        rw [ht, hI.data] at h3; exact h3
      have hq := hp.map (fun d => secs d.node.data.size.toNat)
      rw [List.map_map, List.map_map] at hq
      have := List.Perm.sum_nat hq
      refine this.trans ?_
      unfold itemSectors
      congr 1
      apply List.map_congr_left
      intro it hit
      have := hI.small it hit
      simp only [Function.comp, itemData]
      rw [UInt32.toNat_ofNat_of_lt' this]
    have hch : ∀ n ∈ A'.tree, ∀ c, n.left = some c ∨ n.right = some c → c < (offs 0 lens).length := by
      intro n hn c hcc
      obtain ⟨i, hi, he⟩ := List.mem_iff_getElem.1 hn
      have := Rep.children h1.zip.rep i (by rw [h2]; simpa using hi) n
        (by rw [List.getElem?_eq_getElem hi, he]) c hcc
      rw [h2] at this
      rw [offs_length, hl1]
      simpa using this
    rcases mkEnts_cases (offsets := offs 0 lens) (next := next) (lensOnDisk_names h4) hch (by rw [hsec]; exact hs)
      with ⟨es, he⟩ | ⟨he, o, ho, hge⟩
    · left
      rw [he, hsec]
      exact ⟨_, rfl⟩
    · right
      rw [he]
      refine ⟨rfl, total 0 lens, ?_, ?_⟩
      · unfold dirtabSize; rw [if_neg hne, h5]; rfl
      · have := offs_lt_total (fun l hl => by have := hl2 l hl; omega) o ho
        omega

/-! ## When a table stays below 256 KiB -/

/-- Every full sector holds at least 1780 bytes of entries. -/
theorem total_bound : ∀ {ls : List Nat} {pos used : Nat}, (∀ l ∈ ls, l % 4 = 0 ∧ 16 ≤ l ∧ l ≤ 272) →
    pos % 4 = 0 → 1780 * (pos / 2048) + pos % 2048 ≤ used →
    1780 * (total pos ls / 2048) + total pos ls % 2048 ≤ used + ls.sum := by
  intro ls
  induction ls with
  | nil => intro pos used _ _ h; exact h
  | cons l ls ih =>
    intro pos used hl h4 h
    simp only [total, List.sum_cons]
    have hl0 := hl l (by simp)
    rw [← Nat.add_assoc]
    apply ih (fun x hx => hl x (by simp [hx])) (by have := place_mod4 (l := l) h4; omega)
    rcases place_cases (pos := pos) (l := l) (by omega) (by omega) with ⟨h1, h2⟩ | ⟨h1, h2, h3⟩
    · rw [h1]; omega
    · rw [h1]; omega

theorem lensOnDisk_sum : ∀ {ns : List (AvlNode DirData)} {ls : List Nat}, lensOnDisk ns = .ok ls →
    ls.sum = (ns.map (fun n => elen n.data.name.length)).sum := by
  intro ns
  induction ns with
  | nil => intro ls h; simp only [lensOnDisk] at h; cases h; rfl
  | cons n ns ih =>
    intro ls h
    simp only [lensOnDisk, Res.bind_eq_ok] at h
    obtain ⟨l, hl, ls', hls, h⟩ := h
    cases h
    obtain ⟨b, hb, rfl⟩ := lenOnDisk_ok hl
    have : b.length = n.data.name.length := by
      rw [← encodeName_decode hb]; simp [decodeName]
    simp [ih hls, this]

/-- A table whose entries take at most `128 * 1780` bytes stays below 256 KiB. -/
theorem buildTable_small {items : List Item} {w : TabWriter} (hb : buildTable items = .ok w) {n : Nat}
    (hn : w.dirtabSize = .ok n) (hs : (items.map (fun it => elen it.name.length)).sum ≤ 227840) :
    n ≤ 262144 := by
  obtain ⟨w0, T, hI, hc, ht⟩ := buildTable_inv hb
  unfold dirtabSize at hn
  split at hn
  · cases hn; omega
  · obtain ⟨_, lens, h1, h2, _⟩ := computeSize_ok hI.wf hc
    rw [h2] at hn
    cases hn
    obtain ⟨ns, _, h3⟩ := Rep.nodes hI.wf.zip.rep
    have h4 := h1 ns h3
    have h5 := total_bound (pos := 0) (used := 0) (lensOnDisk_forall h4).2 rfl (by simp)
    have h6 : lens.sum = (items.map (fun it => elen it.name.length)).sum := by
      rw [lensOnDisk_sum h4]
      have hp : (ns.map AvlNode.data).Perm (items.map itemData) := by rw [h3]; exact hI.preorder_perm
      have hq := hp.map (fun d => elen d.name.length)
      rw [List.map_map, List.map_map] at hq
      exact List.Perm.sum_nat hq
    omega

end Xdvdfs
