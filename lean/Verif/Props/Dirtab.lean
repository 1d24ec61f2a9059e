import Verif.Proof.TableMain

/-! # C21–C25: directory tables written by the packer, as seen by the readers

In every theorem `items` are the entries handed to a table writer, `w` the finished writer, `r` the
serialized table (produced with allocator state `next`), and `tab` a region of a device on which the
table is stored (`Spec.Placed`). -/

namespace Xdvdfs.Props

open TabWriter Spec

theorem walk_empty {dev : Dev} {tab : Region} (h1 : tab.size.toNat = 2048)
    (h2 : readDirent dev (2048 * tab.sector.toNat) = .ok none) {fuel : Nat} (hf : 0 < fuel) :
    walkDirentTree dev tab fuel = .ok [] := by
  obtain ⟨f, rfl⟩ : ∃ f, fuel = f + 1 := ⟨fuel - 1, by omega⟩
  unfold walkDirentTree
  have he : ¬ tab.isEmpty = true := by
    intro h; simp [Region.isEmpty] at h; rw [h] at h1; simp at h1
  rw [if_neg he]
  simp only [walkLoop, Region.offset_of_lt (show 0 < tab.size.toNat by omega), Res.ok_bind, Nat.add_zero, h2,
    List.reverse_nil]

/-- The listing of a placed table, for any contents. -/
theorem placed_walk {items : List Item} {w : TabWriter} (hb : buildTable items = .ok w)
    {next next' : Nat} {r : DiskRepr} (hr : w.diskRepr next = .ok (r, next'))
    {dev : Dev} {tab : Region} (hP : Placed dev tab w r) {sz : Nat} (hsz : w.dirtabSize = .ok sz) :
    (items = [] ∧ ∀ fuel, items.length < fuel → walkDirentTree dev tab fuel = .ok []) ∨
    (∃ t, items ≠ [] ∧ TabTree dev tab items r sz t ∧
      ∀ fuel, items.length < fuel → walkDirentTree dev tab fuel = .ok (visit t)) := by
  by_cases hi : items = []
  · left
    subst hi
    obtain ⟨h1, h2, h3⟩ := placed_empty hb hr hP
    exact ⟨rfl, fun fuel hf => walk_empty h1 h3 (by simpa using hf)⟩
  · right
    obtain ⟨t, ht⟩ := placed_tree hb hr hi hP hsz
    exact ⟨t, hi, ht, fun fuel hf => walkDirentTree_rooted ht.rooted (by rw [ht.size]; omega)⟩

/-- Links of the entries of a linked tree designate entries of that tree. -/
theorem linked_links {dev : Dev} {tab : Region} : ∀ {t : BT DirEnt} {lk : UInt16}, Linked dev tab lk t →
    (lk = 0 ∨ (IsLink lk ∧ ∃ c ∈ t.inorder, c.offset = 2048 * tab.sector.toNat + 4 * lk.toNat)) ∧
    ∀ d ∈ t.inorder, ∀ l ∈ [d.node.left, d.node.right],
      l = 0 ∨ (IsLink l ∧ ∃ c ∈ t.inorder, c.offset = 2048 * tab.sector.toNat + 4 * l.toNat) := by
  intro t
  induction t with
  | nil => intro lk h; exact ⟨.inl h, by simp [BT.inorder]⟩
  | node l d r ihl ihr =>
    intro lk h
    obtain ⟨h1, h2, h3, h4, h5, h6⟩ := h
    obtain ⟨a1, a2⟩ := ihl h5
    obtain ⟨b1, b2⟩ := ihr h6
    have lift : ∀ {x : UInt16} {t' : BT DirEnt}, (∀ c ∈ t'.inorder, c ∈ (BT.node l d r).inorder) →
        (x = 0 ∨ (IsLink x ∧ ∃ c ∈ t'.inorder, c.offset = 2048 * tab.sector.toNat + 4 * x.toNat)) →
        (x = 0 ∨ (IsLink x ∧ ∃ c ∈ (BT.node l d r).inorder, c.offset = 2048 * tab.sector.toNat + 4 * x.toNat)) := by
      rintro x t' hs (h | ⟨h, c, hc, hc'⟩)
      · exact .inl h
      · exact .inr ⟨h, c, hs c hc, hc'⟩
    have sl : ∀ c ∈ l.inorder, c ∈ (BT.node l d r).inorder := by
      intro c hc; simp [BT.inorder, hc]
    have sr : ∀ c ∈ r.inorder, c ∈ (BT.node l d r).inorder := by
      intro c hc; simp [BT.inorder, hc]
    refine ⟨.inr ⟨⟨h1, h2⟩, d, by simp [BT.inorder], readDirent_offset h4⟩, ?_⟩
    intro x hx k hk
    simp only [BT.inorder, List.mem_append, List.mem_cons] at hx
    rcases hx with hx | rfl | hx
    · exact lift sl (a2 x hx k hk)
    · simp only [List.mem_cons, List.not_mem_nil, or_false] at hk
      rcases hk with rfl | rfl
      · exact lift sl a1
      · exact lift sr b1
    · exact lift sr (b2 x hx k hk)

theorem rooted_links {dev : Dev} {tab : Region} {t : BT DirEnt} (h : Rooted dev tab t) :
    (∃ c ∈ t.inorder, c.offset = 2048 * tab.sector.toNat) ∧
    ∀ d ∈ t.inorder, ∀ l ∈ [d.node.left, d.node.right],
      l = 0 ∨ (IsLink l ∧ ∃ c ∈ t.inorder, c.offset = 2048 * tab.sector.toNat + 4 * l.toNat) := by
  cases t with
  | nil => exact absurd h id
  | node l d r =>
    obtain ⟨h1, h2, h3, h4⟩ := h
    obtain ⟨a1, a2⟩ := linked_links h3
    obtain ⟨b1, b2⟩ := linked_links h4
    refine ⟨⟨d, by simp [BT.inorder], readDirent_offset h2⟩, ?_⟩
    have lift : ∀ {x : UInt16} {t' : BT DirEnt}, (∀ c ∈ t'.inorder, c ∈ (BT.node l d r).inorder) →
        (x = 0 ∨ (IsLink x ∧ ∃ c ∈ t'.inorder, c.offset = 2048 * tab.sector.toNat + 4 * x.toNat)) →
        (x = 0 ∨ (IsLink x ∧ ∃ c ∈ (BT.node l d r).inorder, c.offset = 2048 * tab.sector.toNat + 4 * x.toNat)) := by
      rintro x t' hs (h | ⟨h, c, hc, hc'⟩)
      · exact .inl h
      · exact .inr ⟨h, c, hs c hc, hc'⟩
    have sl : ∀ c ∈ l.inorder, c ∈ (BT.node l d r).inorder := by
      intro c hc; simp [BT.inorder, hc]
    have sr : ∀ c ∈ r.inorder, c ∈ (BT.node l d r).inorder := by
      intro c hc; simp [BT.inorder, hc]
    intro x hx k hk
    simp only [BT.inorder, List.mem_append, List.mem_cons] at hx
    rcases hx with hx | rfl | hx
    · exact lift sl (a2 x hx k hk)
    · simp only [List.mem_cons, List.not_mem_nil, or_false] at hk
      rcases hk with rfl | rfl
      · exact lift sl a1
      · exact lift sr b1
    · exact lift sr (b2 x hx k hk)

/-! ## C21 -/

/-- C21.  All entries of a written table start at multiples of four (relative to the table), lie
within one sector, do not overlap, and their links are zero or the offset of another entry divided
by four, never a reserved value; the first entry is at offset zero. -/
theorem C21_layout {items : List Item} {w : TabWriter} (hb : buildTable items = .ok w)
    {next next' : Nat} {r : DiskRepr} (hr : w.diskRepr next = .ok (r, next'))
    {dev : Dev} {tab : Region} (hP : Placed dev tab w r) :
    ∃ ds, (∀ fuel, items.length < fuel → walkDirentTree dev tab fuel = .ok ds) ∧
      ds.length = items.length ∧ ds.Pairwise Apart ∧
      (items ≠ [] → ∃ d ∈ ds, d.offset = 2048 * tab.sector.toNat) ∧
      ∀ d ∈ ds,
        (∃ o, d.offset = 2048 * tab.sector.toNat + o ∧ o % 4 = 0 ∧ o % 2048 + entryLen d ≤ 2048 ∧
          o + entryLen d ≤ tab.size.toNat) ∧
        ∀ l ∈ [d.node.left, d.node.right],
          l = 0 ∨ (IsLink l ∧ ∃ c ∈ ds, c.offset = 2048 * tab.sector.toNat + 4 * l.toNat) := by
  obtain ⟨sz, hsz, hle, _⟩ := hP.2
  rcases placed_walk hb hr hP hsz with ⟨h1, h2⟩ | ⟨t, h1, ht, h2⟩
  · exact ⟨[], h2, by simp [h1], .nil, fun h => absurd h1 h, by simp⟩
  · have hp := visit_perm t
    obtain ⟨k1, k2⟩ := rooted_links ht.rooted
    refine ⟨visit t, h2, by rw [visit_length, ht.size], ?_, ?_, ?_⟩
    · exact hp.symm.pairwise ht.apart (fun h => h.symm)
    · intro _
      obtain ⟨c, hc, hc'⟩ := k1
      exact ⟨c, hp.mem_iff.2 hc, hc'⟩
    · intro d hd
      have hd' := hp.mem_iff.1 hd
      obtain ⟨o, o1, o2, o3, o4⟩ := ht.layout d hd'
      refine ⟨⟨o, o1, o2, o3, by omega⟩, ?_⟩
      intro l hl
      rcases k2 d hd' l hl with h | ⟨h, c, hc, hc'⟩
      · exact .inl h
      · exact .inr ⟨h, c, hp.mem_iff.2 hc, hc'⟩

/-! ## C22 -/

/-- C22.  The size announced for a table, rounded up to whole sectors, is the number of bytes
serialized; and for a non-empty table the announced size is exactly where the last entry ends (the
rest of the serialized table is `0xff` padding). -/
theorem C22_size_agrees {items : List Item} {w : TabWriter} (hb : buildTable items = .ok w)
    {next next' : Nat} {r : DiskRepr} (hr : w.diskRepr next = .ok (r, next')) :
    ∃ sz, w.dirtabSize = .ok sz ∧ sz < 2 ^ 32 ∧ r.entryTable.length = roundUp sz ∧
      (∀ i b, sz ≤ i → r.entryTable[i]? = some b → b = 0xff) ∧
      (items = [] → sz = 2048) ∧
      (items ≠ [] → ∀ (dev : Dev) (tab : Region), Placed dev tab w r →
        ∃ ds, (∀ fuel, items.length < fuel → walkDirentTree dev tab fuel = .ok ds) ∧
          (∀ d ∈ ds, d.offset + entryLen d ≤ 2048 * tab.sector.toNat + sz) ∧
          ∃ d ∈ ds, d.offset + entryLen d = 2048 * tab.sector.toNat + sz) := by
  obtain ⟨_, ⟨h1, h2, h3, h4⟩ | ⟨h1, A', T', lens, es, W, hne', hp, hs, hd⟩⟩ := table_written hb hr
  · refine ⟨2048, h4, by omega, ?_, ?_, fun _ => rfl, fun h => absurd h1 h⟩
    · rw [h2]; show (List.replicate 2048 (0xff : UInt8)).length = _
      rw [List.length_replicate]; rfl
    · intro i b hi hb'
      rw [h2] at hb'
      rw [List.getElem?_replicate] at hb'
      split at hb'
      · omega
      · cases hb'
  · obtain ⟨f1, f2, f3, f4, f5, f6⟩ := W.facts
    refine ⟨total 0 lens, hd, W.size_lt, f6, ?_, fun h => absurd h h1, ?_⟩
    · intro i b hi hb'
      rw [W.table, List.getElem?_append_right (by omega), List.getElem?_replicate] at hb'
      split at hb'
      · exact (Option.some.inj hb').symm
      · cases hb'
    · intro _ dev tab hP
      rcases placed_walk hb hr hP hd with ⟨h1', h2⟩ | ⟨t, _, ht, h2⟩
      · exact absurd h1' h1
      · have hpm := visit_perm t
        refine ⟨visit t, h2, ?_, ?_⟩
        · intro d hd
          obtain ⟨o, o1, o2, o3, o4⟩ := ht.layout d (hpm.mem_iff.1 hd)
          omega
        · obtain ⟨d, k1, k2⟩ := ht.last
          exact ⟨d, hpm.mem_iff.2 k1, k2⟩

/-! ## C23 -/

theorem height_fuel {t : BT DirEnt} (hb : t.Balanced) {n fuel : Nat} (hn : t.size = n)
    (hf : 2 * Nat.log2 (n + 1) < fuel) : t.height ≤ fuel := by
  have h4 := balanced_size hb
  have h5 : (t.height + 1) / 2 ≤ Nat.log2 (t.size + 1) := (Nat.le_log2 (by omega)).2 h4
  rw [hn] at h5
  omega

/-- C23.  Looking up a name in a written table: if the table was built from an item with that name
(ignoring ASCII case) the lookup returns the entry of that item, with its name, size, kind and data
sector; otherwise it reports `DoesNotExist`.  The number of entries visited is at most logarithmic
in the number of items. -/
theorem C23_lookup {items : List Item} {w : TabWriter} (hb : buildTable items = .ok w)
    {next next' : Nat} {r : DiskRepr} (hr : w.diskRepr next = .ok (r, next'))
    {dev : Dev} {tab : Region} (hP : Placed dev tab w r) (name : Str) :
    (∀ it ∈ items, SameName it.name name →
      ∃ d l, (∀ fuel, 2 * Nat.log2 (items.length + 1) < fuel →
          findDirent dev tab name fuel = .ok d) ∧
        d.nameStr = it.name ∧ d.node.dirent.data.size.toNat = it.storedSize ∧
        d.node.dirent.attrs = it.attrs ∧
        l ∈ r.fileListing ∧ l.name = it.name ∧ l.size = it.storedSize ∧ l.isDir = it.isDir ∧
        d.node.dirent.data.sector.toNat = l.sector) ∧
    ((∀ it ∈ items, ¬ SameName it.name name) →
      ∀ fuel, 2 * Nat.log2 (items.length + 1) < fuel →
        findDirent dev tab name fuel = .err .doesNotExist) := by
  obtain ⟨sz, hsz, hle, _⟩ := hP.2
  by_cases hi : items = []
  · subst hi
    refine ⟨by simp, ?_⟩
    intro _ fuel hf
    obtain ⟨h1, h2, h3⟩ := placed_empty hb hr hP
    obtain ⟨f, rfl⟩ : ∃ f, fuel = f + 1 := ⟨fuel - 1, by omega⟩
    unfold findDirent
    have he : ¬ tab.isEmpty = true := by
      intro h; simp [Region.isEmpty] at h; rw [h] at h1; simp at h1
    rw [if_neg he]
    simp only [findLoop, Region.offset_of_lt (show 0 < tab.size.toNat by omega), Res.ok_bind, Nat.add_zero, h3,
      Res.ofOption_none, Res.err_bind]
  · obtain ⟨t, ht⟩ := placed_tree hb hr hi hP hsz
    obtain ⟨hkeys, _, _⟩ := table_listing hb hr
    have hdist := (table_written hb hr).1
    have hfind : ∀ fuel, 2 * Nat.log2 (items.length + 1) < fuel →
        findDirent dev tab name fuel = Res.ofOption .doesNotExist (findBT name t) := fun fuel hf =>
      findDirent_rooted ht.rooted name (height_fuel ht.bal ht.size hf)
    have hback : ∀ d ∈ t.inorder, ∃ it ∈ items, itemKey it = listKey (summary d) := by
      intro d hd
      have h1 : summary d ∈ r.fileListing := ht.listing.mem_iff.1 (List.mem_map_of_mem hd)
      have h2 := hkeys.mem_iff.1 (List.mem_map_of_mem (f := listKey) h1)
      obtain ⟨it, hit, he⟩ := List.mem_map.1 h2
      exact ⟨it, hit, he⟩
    refine ⟨?_, ?_⟩
    · intro it hit hsame
      have h1 : itemKey it ∈ r.fileListing.map listKey := hkeys.mem_iff.2 (List.mem_map_of_mem hit)
      obtain ⟨l, hl, hlk⟩ := List.mem_map.1 h1
      obtain ⟨d, hd, hdl⟩ := List.mem_map.1 (ht.listing.mem_iff.2 hl)
      simp only [listKey, itemKey, Prod.mk.injEq] at hlk
      obtain ⟨k1, k2, k3⟩ := hlk
      have hname : d.nameStr = it.name := by rw [← k1, ← hdl]; rfl
      refine ⟨d, l, ?_, hname, ?_, ?_, hl, k1, k2, k3, ?_⟩
      · intro fuel hf
        rw [hfind fuel hf, findBT_of_mem ht.sorted hd]
        · rfl
        · rw [hname]; exact (cmp_eq_iff _ _).2 hsame.symm
      · rw [← k2, ← hdl]; rfl
      · rw [ht.attrs d hd, hdl, k3]; rfl
      · rw [← hdl]; rfl
    · intro hno fuel hf
      rw [hfind fuel hf]
      cases hfb : findBT name t with
      | none => rfl
      | some d =>
        obtain ⟨hd, hc⟩ := findBT_mem hfb
        obtain ⟨it, hit, he⟩ := hback d hd
        simp only [listKey, itemKey, Prod.mk.injEq] at he
        have : SameName name d.nameStr := (cmp_eq_iff _ _).1 hc
        exact absurd (by rw [he.1]; exact this.symm) (hno it hit)

/-! ## C24 -/

/-- C24.  Listing a written table returns every item exactly once: the listed entries are, up to
order, the listing kept by the packer (names, data sectors, sizes and kinds), which in turn matches
the items; the data sectors are allocated one after the other. -/
theorem C24_listing {items : List Item} {w : TabWriter} (hb : buildTable items = .ok w)
    {next next' : Nat} {r : DiskRepr} (hr : w.diskRepr next = .ok (r, next'))
    {dev : Dev} {tab : Region} (hP : Placed dev tab w r) :
    ∃ ds, (∀ fuel, items.length < fuel → walkDirentTree dev tab fuel = .ok ds) ∧
      (ds.map summary).Perm r.fileListing ∧
      (ds.map (fun d => (d.nameStr, d.node.dirent.data.size.toNat, d.node.dirent.attrs))).Perm
        (items.map (fun it => (it.name, it.storedSize, it.attrs))) ∧
      Consecutive next r.fileListing next' := by
  obtain ⟨sz, hsz, hle, _⟩ := hP.2
  obtain ⟨hkeys, hcons, _⟩ := table_listing hb hr
  rcases placed_walk hb hr hP hsz with ⟨h1, h2⟩ | ⟨t, h1, ht, h2⟩
  · refine ⟨[], h2, ?_, by simp [h1], hcons⟩
    subst h1
    have := hkeys.length_eq
    simp at this
    rw [this]; exact .refl _
  · have hp := visit_perm t
    refine ⟨visit t, h2, (hp.map summary).trans ht.listing, ?_, hcons⟩
    let g : Str × Nat × Bool → Str × Nat × UInt8 := fun k => (k.1, k.2.1, if k.2.2 then 16 else 32)
    have e1 : items.map (fun it => (it.name, it.storedSize, it.attrs)) = (items.map itemKey).map g := by
      rw [List.map_map]; rfl
    have e2 : (visit t).map (fun d => (d.nameStr, d.node.dirent.data.size.toNat, d.node.dirent.attrs))
        = (((visit t).map summary).map listKey).map g := by
      rw [List.map_map, List.map_map]
      apply List.map_congr_left
      intro d hd
      have := ht.attrs d (hp.mem_iff.1 hd)
      show _ = (d.nameStr, d.node.dirent.data.size.toNat, _)
      rw [this]; rfl
    rw [e1, e2]
    exact ((((hp.map summary).trans ht.listing).map listKey).trans hkeys).map g

/-! ## C25 -/

theorem scan_empty {dev : Dev} {tab : Region} (h1 : tab.size.toNat = 2048)
    (h2 : HoldsAt dev (2048 * tab.sector.toNat) (List.replicate 2048 0xff)) {fuel : Nat} (hf : 0 < fuel) :
    scanAll dev tab fuel = .ok [] := by
  obtain ⟨f, rfl⟩ : ∃ f, fuel = f + 1 := ⟨fuel - 1, by omega⟩
  unfold scanAll scanInit
  have he : ¬ tab.isEmpty = true := by
    intro h; simp [Region.isEmpty] at h; rw [h] at h1; simp at h1
  have hr := h2 0 2048 (by rw [List.length_replicate]; omega)
  have hsl : slice (List.replicate 2048 (0xff : UInt8)) 0 2048 = List.replicate 2048 0xff := by
    rw [slice, List.drop_zero, List.take_replicate, Nat.min_self]
  rw [hsl] at hr
  rw [if_neg he, Region.offset_of_lt (by omega)]
  simp only [Res.ok_bind, hr, Res.pure_eq]
  have hs : ScanAt (List.replicate 2048 0xff) tab.sector.toNat 1
      { sector := tab.sector.toNat, buf := List.replicate 2048 0xff, offset := 0,
        endSector := tab.sector.toNat + (tab.size.toNat + 2047) / 2048 } 0 :=
    ⟨by simp, by simp, by simp only [h1], fun _ => hsl.symm, by omega⟩
  have hff : slice (List.replicate 2048 (0xff : UInt8)) 0 14 = List.replicate 14 0xff := by
    rw [slice, List.drop_zero, List.take_replicate]; rfl
  have hst := step_gap (dev := dev) hs (by omega) hff
  rw [if_neg (by simp only [h1]; omega)] at hst
  simp only [scanDrain, Scan.next]
  rw [if_neg (by simp only [h1]; omega)]
  simp only [Scan.nextLoop, hst, Res.pure_eq, Res.ok_bind, List.reverse_nil]

theorem scanEnts_map : ∀ (es : List Ent) (pos : Nat),
    (scanEnts pos es).map (fun d => (d.node, d.name)) = es.map (fun e => (e.node, e.name)) := by
  intro es
  induction es with
  | nil => intro pos; rfl
  | cons e es ih => intro pos; simp [scanEnts, scanEnt, ih]

/-- C25.  On a written table the sequential scan returns the same entries (headers and names) as
the tree walk, each exactly once; the scan returns them in the order of the packer's listing. -/
theorem C25_scan_agrees {items : List Item} {w : TabWriter} (hb : buildTable items = .ok w)
    {next next' : Nat} {r : DiskRepr} (hr : w.diskRepr next = .ok (r, next'))
    {dev : Dev} {tab : Region} (hP : Placed dev tab w r) :
    ∃ ds ss, (∀ fuel, items.length < fuel → walkDirentTree dev tab fuel = .ok ds) ∧
      (∀ fuel, items.length < fuel → scanAll dev tab fuel = .ok ss) ∧
      (ss.map (fun d => (d.node, d.name))).Perm (ds.map (fun d => (d.node, d.name))) ∧
      ss.map summary = r.fileListing := by
  obtain ⟨hh, sz, hsz, hle, hle2⟩ := hP
  have hP : Placed dev tab w r := ⟨hh, sz, hsz, hle, hle2⟩
  obtain ⟨_, ⟨h1, h2, h3, h4⟩ | ⟨h1, A', T', lens, es, W, hne', hp, hs, hd⟩⟩ := table_written hb hr
  · subst h1
    obtain ⟨k1, k2, k3⟩ := placed_empty hb hr hP
    refine ⟨[], [], fun fuel hf => walk_empty k1 k3 (by simpa using hf),
      fun fuel hf => scan_empty k1 k2 (by simpa using hf), .refl _, by rw [h2]; rfl⟩
  · rw [hd] at hsz
    cases hsz
    have ht := W.tree hh hne' hp hle
    have hlen : es.length = items.length := by
      rw [W.facts.2.1]; have := hp.length_eq; simpa using this
    have hperm := W.inorder_perm (2048 * tab.sector.toNat)
    have hent : (List.range es.length).map (fun i => ((direntAt (2048 * tab.sector.toNat) es (offs 0 lens) i).node,
        (direntAt (2048 * tab.sector.toNat) es (offs 0 lens) i).name))
        = (es.map Prod.fst).map (fun e => (e.node, e.name)) := by
      rw [List.map_map]
      apply List.ext_getElem
      · simp
      · intro i h1 h2
        simp at h1
        obtain ⟨n, e, l, o, g1, g2, g3, g4, g5, g6, g7⟩ := W.dirent_at (2048 * tab.sector.toNat) h1
        have : es[i] = (e, l) := by
          rw [List.getElem?_eq_getElem h1] at g2; exact Option.some.inj g2
        simp [g6, this]
    refine ⟨_, _, fun fuel hf => walkDirentTree_rooted ht.rooted (by rw [ht.size]; omega),
      fun fuel hf => W.scan hh hne' (attrsOK_of_perm hp) hle hle2 (by omega), ?_, ?_⟩
    · rw [scanEnts_map, ← hent]
      have h5 := ((visit_perm _).trans hperm).map (fun d : DirEnt => (d.node, d.name))
      rw [List.map_map] at h5
      exact h5.symm
    · have h6 : ∀ d, summary d = (fun x : DiskNode × Bytes => summary ⟨x.1, x.2, 0⟩) (d.node, d.name) :=
        fun d => rfl
      have : (scanEnts 0 (es.map Prod.fst)).map summary
          = ((scanEnts 0 (es.map Prod.fst)).map (fun d => (d.node, d.name))).map
            (fun x : DiskNode × Bytes => summary ⟨x.1, x.2, 0⟩) := by
        rw [List.map_map]; rfl
      rw [this, scanEnts_map, W.listing, List.map_map, List.map_map]
      apply List.ext_getElem
      · simp
      · intro i h1 h2
        simp at h1
        obtain ⟨n, e, l, o, g1, g2, g3, g4, g5, g6, g7⟩ := W.dirent_at (2048 * tab.sector.toNat) h1
        have : es[i] = (e, l) := by
          rw [List.getElem?_eq_getElem h1] at g2; exact Option.some.inj g2
        simp [this, summary_of_entOf g3]

/-! ## The hypotheses are met -/

/-- Six items, one of them a directory, with names of both cases and a non-ASCII name. -/
def sampleItems : List Item :=
  [⟨"default.xbe".toList, false, 5000⟩, ⟨"Media".toList, true, 60⟩, ⟨"a".toList, false, 0⟩,
   ⟨"ZED.TXT".toList, false, 2048⟩, ⟨"é".toList, false, 1⟩, ⟨"b".toList, false, 7⟩]

/-- The table of these items, its announced size, its listing, and the result of looking up,
walking and scanning it on a device that starts with it. -/
def sampleRun : Option (List Nat × List Listing × List (List Str)) :=
  match buildTable sampleItems with
  | .ok w => match w.diskRepr 34, w.dirtabSize with
    | .ok (r, _), .ok sz =>
      let dev := fileDev r.entryTable
      let tab : Region := ⟨0, UInt32.ofNat sz⟩
      match findDirent dev tab "zed.txt".toList 10, walkDirentTree dev tab 10, scanAll dev tab 10 with
      | .ok d, .ok ds, .ok ss =>
        some ([sz, r.entryTable.length], r.fileListing,
          [[d.nameStr], ds.map DirEnt.nameStr, ss.map DirEnt.nameStr])
      | _, _, _ => none
    | _, _ => none
  | _ => none

example : sampleRun = some ([120, 2048],
    [⟨"default.xbe".toList, 34, 5000, false⟩, ⟨"a".toList, 37, 0, false⟩, ⟨"b".toList, 38, 7, false⟩,
     ⟨"ZED.TXT".toList, 39, 2048, false⟩, ⟨"Media".toList, 40, 2048, true⟩, ⟨"é".toList, 41, 1, false⟩],
    [["ZED.TXT".toList],
     ["default.xbe".toList, "ZED.TXT".toList, "é".toList, "Media".toList, "a".toList, "b".toList],
     ["default.xbe".toList, "a".toList, "b".toList, "ZED.TXT".toList, "Media".toList, "é".toList]]) := by
  decide +kernel

theorem holdsAt_file (b : Bytes) : HoldsAt (fileDev b) 0 b := by
  intro o n h
  show fileRead b (0 + o) n = _
  unfold fileRead
  rw [Nat.zero_add]
  by_cases h0 : n = 0
  · subst h0; simp [slice]
  · rw [if_neg h0, if_pos h]

/-- All hypotheses of C21–C25 together, on these items. -/
theorem sample_placed : ∃ w r next', buildTable sampleItems = .ok w ∧ w.diskRepr 34 = .ok (r, next') ∧
    Placed (fileDev r.entryTable) ⟨0, 120⟩ w r := by
  have h1 : (match buildTable sampleItems with
    | .ok w => (match w.diskRepr 34 with
      | .ok _ => decide (w.dirtabSize = .ok 120)
      | _ => false)
    | _ => false) = true := by decide +kernel
  split at h1
  · next w hw =>
    split at h1
    · next x hx =>
      obtain ⟨r, n⟩ := x
      exact ⟨w, r, n, hw, hx, holdsAt_file _, 120, of_decide_eq_true h1, by decide, by decide⟩
    · cases h1
  · cases h1

end Xdvdfs.Props
