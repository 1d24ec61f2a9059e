import Verif.Proof.CliPacked
import Verif.Proof.CopyOut

/-! # Lemmas about the printing commands -/

namespace Xdvdfs

open TabWriter Spec Props

/-! ## Printed links -/

theorem infoLink_small {checked : Bool} {l : UInt16} (h : l.toNat < 2 ^ 14) :
    infoLink checked l = .ok (linkOffset l) := by
  unfold infoLink linkOffset
  split
  · rfl
  · rw [if_pos (by omega)]

theorem infoLink_checked_big {l : UInt16} (h : 2 ^ 14 ≤ l.toNat) : infoLink true l = .panic := by
  have h0 : l ≠ 0 := by rintro rfl; simp at h
  unfold infoLink
  rw [if_neg h0, if_neg (by omega), if_pos rfl]

theorem infoLink_unchecked (l : UInt16) : ∃ o, infoLink false l = .ok o := by
  unfold infoLink
  split
  · exact ⟨_, rfl⟩
  · split
    · exact ⟨_, rfl⟩
    · exact ⟨_, rfl⟩

theorem infoLink_wraps {l : UInt16} (h : 2 ^ 14 ≤ l.toNat) :
    ∃ o, infoLink false l = .ok (some o) ∧ o ≠ 4 * l.toNat := by
  have h0 : l ≠ 0 := by rintro rfl; simp at h
  refine ⟨(4 * l).toNat, ?_, ?_⟩
  · unfold infoLink
    rw [if_neg h0, if_neg (by omega)]; rfl
  · have := (4 * l).toNat_lt
    omega

theorem printDirent_small {checked : Bool} {d : DirEnt} (hl : d.node.left.toNat < 2 ^ 14)
    (hr : d.node.right.toNat < 2 ^ 14) : ∃ i, printDirent checked d = .ok i ∧ Describes i d := by
  unfold printDirent
  rw [infoLink_small hl, infoLink_small hr]
  exact ⟨_, rfl, rfl, rfl, rfl, rfl, rfl, rfl, rfl⟩

theorem infoLink_checked (l : UInt16) :
    infoLink true l = .panic ∨ (l.toNat < 2 ^ 14 ∧ infoLink true l = .ok (linkOffset l)) := by
  by_cases h : l.toNat < 2 ^ 14
  · exact .inr ⟨h, infoLink_small h⟩
  · exact .inl (infoLink_checked_big (by omega))

/-- With overflow checks an entry is printed truly or not at all. -/
theorem printDirent_checked (d : DirEnt) : printDirent true d = .panic ∨
    (d.node.left.toNat < 2 ^ 14 ∧ d.node.right.toNat < 2 ^ 14) := by
  unfold printDirent
  rcases infoLink_checked d.node.left with h1 | ⟨h1, h1'⟩
  · left; rw [h1]; rfl
  · rcases infoLink_checked d.node.right with h2 | ⟨h2, h2'⟩
    · left; rw [h1', h2]; rfl
    · exact .inr ⟨h1, h2⟩

theorem printDirent_unchecked (d : DirEnt) : ∃ i, printDirent false d = .ok i := by
  obtain ⟨a, ha⟩ := infoLink_unchecked d.node.left
  obtain ⟨b, hb⟩ := infoLink_unchecked d.node.right
  unfold printDirent
  rw [ha, hb]
  exact ⟨_, rfl⟩

theorem printDirents_small {checked : Bool} : ∀ {ds : List DirEnt},
    (∀ d ∈ ds, d.node.left.toNat < 2 ^ 14 ∧ d.node.right.toNat < 2 ^ 14) →
    ∃ is, printDirents checked ds = .ok is ∧ is.map DirentInfo.name = ds.map DirEnt.nameStr ∧
      is.map DirentInfo.offset = ds.map DirEnt.offset ∧ ∀ i ∈ is, ∃ d ∈ ds, Describes i d := by
  intro ds
  induction ds with
  | nil => intro _; exact ⟨[], rfl, rfl, rfl, by simp⟩
  | cons d ds ih =>
    intro h
    obtain ⟨is, h1, h2, h3, h4⟩ := ih (fun x hx => h x (by simp [hx]))
    obtain ⟨hl, hr⟩ := h d (by simp)
    obtain ⟨i, hi, hd⟩ := printDirent_small (checked := checked) hl hr
    refine ⟨i :: is, ?_, ?_, ?_, ?_⟩
    · simp only [printDirents, hi, h1, Res.ok_bind]; rfl
    · simp [h2, hd.1]
    · simp [h3, hd.2.1]
    · intro j hj
      rcases List.mem_cons.1 hj with rfl | hj
      · exact ⟨d, by simp, hd⟩
      · obtain ⟨x, hx, hx'⟩ := h4 j hj
        exact ⟨x, by simp [hx], hx'⟩

theorem printDirents_checked {ds : List DirEnt}
    (h : ∃ d ∈ ds, 2 ^ 14 ≤ d.node.left.toNat ∨ 2 ^ 14 ≤ d.node.right.toNat) : printDirents true ds = .panic := by
  induction ds with
  | nil => obtain ⟨d, hd, _⟩ := h; cases hd
  | cons d ds ih =>
    simp only [printDirents]
    rcases printDirent_checked d with h1 | ⟨h1, h2⟩
    · rw [h1]; rfl
    · obtain ⟨i, hi, _⟩ := printDirent_small (checked := true) h1 h2
      rw [hi]
      obtain ⟨x, hx, hx'⟩ := h
      rcases List.mem_cons.1 hx with rfl | hx
      · omega
      · rw [ih ⟨x, hx, hx'⟩]; rfl

theorem printDirents_unchecked : ∀ (ds : List DirEnt), ∃ is, printDirents false ds = .ok is ∧
    ∀ d ∈ ds, ∃ i ∈ is, printDirent false d = .ok i := by
  intro ds
  induction ds with
  | nil => exact ⟨[], rfl, by simp⟩
  | cons d ds ih =>
    obtain ⟨is, h1, h2⟩ := ih
    obtain ⟨i, hi⟩ := printDirent_unchecked d
    refine ⟨i :: is, ?_, ?_⟩
    · simp only [printDirents, hi, h1, Res.ok_bind]; rfl
    · intro x hx
      rcases List.mem_cons.1 hx with rfl | hx
      · exact ⟨i, by simp, hi⟩
      · obtain ⟨j, hj, hj'⟩ := h2 x hx
        exact ⟨j, by simp [hj], hj'⟩

theorem printDirent_wraps {d : DirEnt} {i : DirentInfo} (hi : printDirent false d = .ok i)
    (h : 2 ^ 14 ≤ d.node.left.toNat ∨ 2 ^ 14 ≤ d.node.right.toNat) :
    i.offset = d.offset ∧
    ((∃ o, i.left = some o ∧ o ≠ 4 * d.node.left.toNat) ∨ (∃ o, i.right = some o ∧ o ≠ 4 * d.node.right.toNat)) := by
  unfold printDirent at hi
  obtain ⟨a, ha⟩ := infoLink_unchecked d.node.left
  obtain ⟨b, hb⟩ := infoLink_unchecked d.node.right
  rw [ha, hb] at hi
  cases hi
  refine ⟨rfl, ?_⟩
  rcases h with h | h
  · obtain ⟨o, h1, h2⟩ := infoLink_wraps h
    rw [ha] at h1; cases h1
    exact .inl ⟨o, rfl, h2⟩
  · obtain ⟨o, h1, h2⟩ := infoLink_wraps h
    rw [hb] at h1; cases h1
    exact .inr ⟨o, rfl, h2⟩

/-! ## Tables of at most `2048 * K` bytes -/

theorem buildTable_within {items : List Item} {w : TabWriter} (hb : buildTable items = .ok w) {n K : Nat} (hK : 0 < K)
    (hn : w.dirtabSize = .ok n) (hs : (items.map (fun it => elen it.name.length)).sum ≤ 1780 * K) :
    n ≤ 2048 * K := by
  obtain ⟨w0, T, hI, hc, ht⟩ := buildTable_inv hb
  unfold dirtabSize at hn
  split at hn
  · cases hn; omega
  · obtain ⟨_, lens, h1, h2, _⟩ := computeSize_ok hI.wf hc
    rw [h2] at hn
    cases hn
    obtain ⟨ns, _, h3⟩ := Rep.nodes hI.wf.zip.rep
    have h4 := h1 ns h3
    have h5 := total_bound (pos := 0) (used := 0) (lensOnDisk_forall h4).2 rfl (by simp)
    have h6 : lens.sum = (items.map (fun it => elen it.name.length)).sum := by
      rw [lensOnDisk_sum h4]
      have hp : (ns.map AvlNode.data).Perm (items.map itemData) := by rw [h3]; exact hI.preorder_perm
      have hq := hp.map (fun d => elen d.name.length)
      rw [List.map_map, List.map_map] at hq
      exact List.Perm.sum_nat hq
    omega

/-! ## Every entry but the first is designated by a link -/

theorem linked_target {dev : Dev} {tab : Region} : ∀ {t : BT DirEnt} {lk : UInt16}, Linked dev tab lk t →
    ∀ c ∈ t.inorder, c.offset = 2048 * tab.sector.toNat + 4 * lk.toNat ∨
      ∃ d ∈ t.inorder, c.offset = 2048 * tab.sector.toNat + 4 * d.node.left.toNat ∨
        c.offset = 2048 * tab.sector.toNat + 4 * d.node.right.toNat := by
  intro t
  induction t with
  | nil => intro lk _ c hc; simp [BT.inorder] at hc
  | node l d r ihl ihr =>
    intro lk h c hc
    obtain ⟨h1, h2, h3, h4, h5, h6⟩ := h
    simp only [BT.inorder, List.mem_append, List.mem_cons] at hc ⊢
    rcases hc with hc | rfl | hc
    · rcases ihl h5 c hc with h | ⟨x, hx, hx'⟩
      · exact .inr ⟨d, .inr (.inl rfl), .inl h⟩
      · exact .inr ⟨x, .inl hx, hx'⟩
    · exact .inl (readDirent_offset h4)
    · rcases ihr h6 c hc with h | ⟨x, hx, hx'⟩
      · exact .inr ⟨d, .inr (.inl rfl), .inr h⟩
      · exact .inr ⟨x, .inr (.inr hx), hx'⟩

theorem rooted_target {dev : Dev} {tab : Region} {t : BT DirEnt} (h : Rooted dev tab t) :
    ∀ c ∈ t.inorder, c.offset = 2048 * tab.sector.toNat ∨
      ∃ d ∈ t.inorder, c.offset = 2048 * tab.sector.toNat + 4 * d.node.left.toNat ∨
        c.offset = 2048 * tab.sector.toNat + 4 * d.node.right.toNat := by
  cases t with
  | nil => exact absurd h id
  | node l d r =>
    obtain ⟨h1, h2, h3, h4⟩ := h
    intro c hc
    simp only [BT.inorder, List.mem_append, List.mem_cons] at hc ⊢
    rcases hc with hc | rfl | hc
    · rcases linked_target h3 c hc with h | ⟨x, hx, hx'⟩
      · exact .inr ⟨d, .inr (.inl rfl), .inl h⟩
      · exact .inr ⟨x, .inl hx, hx'⟩
    · exact .inl (readDirent_offset h2)
    · rcases linked_target h4 c hc with h | ⟨x, hx, hx'⟩
      · exact .inr ⟨d, .inr (.inl rfl), .inr h⟩
      · exact .inr ⟨x, .inr (.inr hx), hx'⟩

theorem linked_read {dev : Dev} {tab : Region} : ∀ {t : BT DirEnt} {lk : UInt16}, Linked dev tab lk t →
    ∀ c ∈ t.inorder, readDirent dev c.offset = .ok (some c) := by
  intro t
  induction t with
  | nil => intro lk _ c hc; simp [BT.inorder] at hc
  | node l d r ihl ihr =>
    intro lk h c hc
    obtain ⟨h1, h2, h3, h4, h5, h6⟩ := h
    simp only [BT.inorder, List.mem_append, List.mem_cons] at hc
    rcases hc with hc | rfl | hc
    · exact ihl h5 c hc
    · rw [readDirent_offset h4]; exact h4
    · exact ihr h6 c hc

theorem rooted_read {dev : Dev} {tab : Region} {t : BT DirEnt} (h : Rooted dev tab t) :
    ∀ c ∈ t.inorder, readDirent dev c.offset = .ok (some c) := by
  cases t with
  | nil => exact absurd h id
  | node l d r =>
    obtain ⟨h1, h2, h3, h4⟩ := h
    intro c hc
    simp only [BT.inorder, List.mem_append, List.mem_cons] at hc
    rcases hc with hc | rfl | hc
    · exact linked_read h3 c hc
    · rw [readDirent_offset h2]; exact h2
    · exact linked_read h4 c hc

theorem nodup_length : ∀ (n : Nat) (l : List Nat), l.Nodup → (∀ x ∈ l, x < n) → l.length ≤ n := by
  intro n
  induction n with
  | zero =>
    intro l _ h
    cases l with
    | nil => simp
    | cons x xs => exact absurd (h x (by simp)) (by omega)
  | succ n ih =>
    intro l hn h
    have h1 := ih (l.erase n) (hn.erase n) (by
      intro x hx
      have := h x (List.mem_of_mem_erase hx)
      have hne : x ≠ n := by rintro rfl; exact (hn.not_mem_erase) hx
      omega)
    have := List.length_erase (l := l) (a := n)
    split at this <;> omega

/-- Entries in disjoint places, all starting in the first 64 KiB of a table: at most 4096. -/
theorem apart_length {ds : List DirEnt} {base : Nat} (h : ds.Pairwise Spec.Apart)
    (hb : ∀ d ∈ ds, base ≤ d.offset ∧ d.offset < base + 65536) : ds.length ≤ 4096 := by
  have hn : (ds.map (fun d => (d.offset - base) / 16)).Nodup := by
    unfold List.Nodup
    rw [List.pairwise_map]
    refine h.imp_of_mem ?_
    intro a b ha hb' hab
    obtain ⟨a1, a2⟩ := hb a ha
    obtain ⟨b1, b2⟩ := hb b hb'
    unfold Spec.Apart entryLen at hab
    omega
  have := nodup_length 4096 _ hn (by
    intro x hx
    obtain ⟨d, hd, rfl⟩ := List.mem_map.1 hx
    obtain ⟨h1, h2⟩ := hb d hd
    omega)
  simpa using this

theorem placed_big {items : List Item} {w : TabWriter} (hb : buildTable items = .ok w)
    {next next' : Nat} {r : DiskRepr} (hr : w.diskRepr next = .ok (r, next'))
    {dev : Dev} {tab : Region} (hP : Placed dev tab w r) (hlen : 4096 < items.length) :
    ∃ ds, (∀ fuel, items.length < fuel → walkDirentTree dev tab fuel = .ok ds) ∧
      ∃ d ∈ ds, readDirent dev d.offset = .ok (some d) ∧
        (2 ^ 14 ≤ d.node.left.toNat ∨ 2 ^ 14 ≤ d.node.right.toNat) := by
  obtain ⟨sz, hsz, hle, _⟩ := hP.2
  rcases placed_walk hb hr hP hsz with ⟨h1, h2⟩ | ⟨t, h1, ht, h2⟩
  · rw [h1] at hlen; simp at hlen
  · have hp := visit_perm t
    refine ⟨visit t, h2, ?_⟩
    have hl : t.inorder.length = items.length := by rw [← hp.length_eq, visit_length, ht.size]
    have hex : ∃ c ∈ t.inorder, 2048 * tab.sector.toNat + 65536 ≤ c.offset := by
      apply Classical.byContradiction
      intro hno
      have := apart_length (base := 2048 * tab.sector.toNat) ht.apart (by
        intro d hd
        obtain ⟨o, o1, _⟩ := ht.layout d hd
        refine ⟨by omega, ?_⟩
        apply Nat.lt_of_not_le
        intro h
        exact hno ⟨d, hd, h⟩)
      omega
    obtain ⟨c, hc, hc'⟩ := hex
    rcases rooted_target ht.rooted c hc with h | ⟨d, hd, h⟩
    · omega
    · exact ⟨d, hp.mem_iff.2 hd, rooted_read ht.rooted d hd, by omega⟩

/-- Links of a small table, and what they designate. -/
theorem placed_small {items : List Item} {w : TabWriter} (hb : buildTable items = .ok w)
    {next next' : Nat} {r : DiskRepr} (hr : w.diskRepr next = .ok (r, next'))
    {dev : Dev} {tab : Region} (hP : Placed dev tab w r)
    (hs : (items.map (fun it => elen it.name.length)).sum ≤ 56960) :
    ∃ ds, (∀ fuel, items.length < fuel → walkDirentTree dev tab fuel = .ok ds) ∧
      (∀ d ∈ ds, readDirent dev d.offset = .ok (some d)) ∧
      (ds ≠ [] → ∃ d ∈ ds, d.offset = 2048 * tab.sector.toNat) ∧
      ∀ d ∈ ds, ∀ l ∈ [d.node.left, d.node.right], l.toNat < 2 ^ 14 ∧
        (l = 0 ∨ ∃ c ∈ ds, c.offset = 2048 * tab.sector.toNat + 4 * l.toNat) := by
  obtain ⟨sz, hsz, hle, _⟩ := hP.2
  have hsm := buildTable_within hb (K := 32) (by omega) hsz (by omega)
  rcases placed_walk hb hr hP hsz with ⟨h1, h2⟩ | ⟨t, h1, ht, h2⟩
  · exact ⟨[], h2, by simp, by simp, by simp⟩
  · have hp := visit_perm t
    obtain ⟨k1, k2⟩ := rooted_links ht.rooted
    refine ⟨visit t, h2, ?_, ?_, ?_⟩
    · intro d hd
      exact rooted_read ht.rooted d (hp.mem_iff.1 hd)
    · intro _
      obtain ⟨c, hc, hc'⟩ := k1
      exact ⟨c, hp.mem_iff.2 hc, hc'⟩
    · intro d hd l hl
      rcases k2 d (hp.mem_iff.1 hd) l hl with h | ⟨h, c, hc, hc'⟩
      · exact ⟨by rw [h]; decide, .inl h⟩
      · obtain ⟨o, o1, o2, o3, o4⟩ := ht.layout c hc
        refine ⟨?_, .inr ⟨c, hp.mem_iff.2 hc, hc'⟩⟩
        have : 14 ≤ entryLen c := by unfold entryLen; omega
        omega

/-! ## Opening -/

theorem openVolume_packed {fs : SourceFs} {content : Path → Bytes} {img : Bytes} {M : PathMap TabWriter}
    {Loc : Path → Listing → Prop} {l0 : Listing} (h : Packed fs content img M Loc l0) (compressed : Bool) :
    ∃ dev, openVolume compressed (fileDev img) = .ok (dev, VolDesc.new (regionOf l0)) ∧ AgreeLow dev (fileDev img) := by
  cases compressed with
  | true =>
    refine ⟨fileDev img, ?_, fun _ _ _ => rfl⟩
    simp only [openVolume, openImage, if_pos, Res.ok_bind, h.volume]; rfl
  | false =>
    refine ⟨offsetDev (fileDev img) 0, ?_, offsetDev_zero _⟩
    simp only [openVolume, openImage, offsetNew_zero h.volume, Res.ok_bind]
    show (readVolume (offsetDev (fileDev img) 0) >>= _) = _
    rw [(offsetDev_zero _).readVolume, h.volume]; rfl

/-- The table of a directory of the source, as the commands find it. -/
theorem dir_table {fs : SourceFs} {content : Path → Bytes} {img : Bytes} {M : PathMap TabWriter}
    {Loc : Path → Listing → Prop} {l0 : Listing} (h : Packed fs content img M Loc l0) {dev : Dev}
    (hI : Img fs.readDir content dev M Loc) {p : Path} (hp : DirOf fs.readDir p) {s : Str}
    (hs : NamesDir p s) {fuel : Nat} (hf : SearchBudget fs.readDir fuel) :
    ∃ l, Loc p l ∧ l.isDir = true ∧
      ((p = [] ∧ s = ['/'] ∧ l0 = l) ∨
       (p ≠ [] ∧ s ≠ ['/'] ∧ ∃ d p' e, walkPath dev (regionOf l0) s fuel = .ok d ∧ d.nameStr = e.name ∧
          d.node.dirent.direntTable = some (regionOf l) ∧ EntryIn fs.readDir p' e ∧ p = p' ++ [e.name])) := by
  rcases hs with ⟨rfl, rfl⟩ | ⟨q, hq, h1, h2, rfl⟩
  · exact ⟨l0, h.root, h.rootDir, .inl ⟨rfl, rfl, rfl⟩⟩
  · cases hp with
    | root => simp [SamePath, eq_comm] at h1; exact absurd h1 hq
    | @sub p lst e g1 g2 g3 g4 =>
      have hin : EntryIn fs.readDir p e := ⟨g1, lst, g2, g3⟩
      obtain ⟨d, l', k1, k2, k3, k4, k5, k6⟩ := hI.entry_lookup h.distinct h.root h.rootDir hin h1 h2 hf
      refine ⟨l', k5, by rw [k6, g4], .inr ⟨by simp, ?_, d, p, e, k1, k2, ?_, hin, rfl⟩⟩
      · cases q with
        | nil => exact absurd rfl hq
        | cons a q =>
          intro he
          have ha := (h2 a (by simp)).1
          simp only [slashPath, List.flatMap_cons, List.cons_append, List.cons.injEq, true_and,
            List.append_eq_nil_iff] at he
          exact ha he.1
      · unfold DiskData.direntTable
        rw [k4, g4, k3]; rfl

theorem walkSegments_snoc {dev : Dev} {fuel : Nat} {x : Str} {d : DirEnt} : ∀ (q : Path) (tab : Region),
    walkSegments dev fuel tab (q ++ [x]) = .ok d → (q = [] ∧ findDirent dev tab x fuel = .ok d) ∨
      (q ≠ [] ∧ ∃ d' tab', walkSegments dev fuel tab q = .ok d' ∧ d'.node.dirent.direntTable = some tab' ∧
        findDirent dev tab' x fuel = .ok d) := by
  intro q
  induction q with
  | nil =>
    intro tab h
    simp only [List.nil_append, walkSegments, Res.bind_eq_ok] at h
    obtain ⟨d', h1, h2⟩ := h
    simp only [if_pos] at h2
    cases h2
    exact .inl ⟨rfl, h1⟩
  | cons a q ih =>
    intro tab h
    right
    refine ⟨by simp, ?_⟩
    simp only [List.cons_append, walkSegments, Res.bind_eq_ok] at h
    obtain ⟨d', h1, h2⟩ := h
    rw [if_neg (by simp)] at h2
    rw [Res.bind_eq_ok] at h2
    obtain ⟨tab', h2, h3⟩ := h2
    rcases ih tab' h3 with ⟨rfl, h4⟩ | ⟨hq, d'', tab'', h4, h5, h6⟩
    · refine ⟨d', tab', ?_, ?_, h4⟩
      · simp only [walkSegments, h1, Res.ok_bind, if_pos]; rfl
      · cases hd : d'.node.dirent.direntTable with
        | none => rw [hd] at h2; cases h2
        | some t => rw [hd] at h2; cases h2; rfl
    · refine ⟨d'', tab'', ?_, h5, h6⟩
      simp only [walkSegments, h1, Res.ok_bind]
      rw [if_neg hq, h2]
      exact h4

/-- An entry found under its path is one of the entries of the table of its directory. -/
theorem entry_table {fs : SourceFs} {content : Path → Bytes} {img : Bytes} {M : PathMap TabWriter}
    {Loc : Path → Listing → Prop} {l0 : Listing} (h : Packed fs content img M Loc l0) {dev : Dev}
    (hI : Img fs.readDir content dev M Loc) {p : Path} {e : FileEntry} (he : EntryIn fs.readDir p e) {q : Path}
    (hs : SamePath (p ++ [e.name]) q) (hq : PlainPath q) {fuel : Nat} (hf : SearchBudget fs.readDir fuel) {d : DirEnt}
    (hd : walkPath dev (regionOf l0) (slashPath q) fuel = .ok d) :
    ∃ l x, Loc p l ∧ l.isDir = true ∧ findDirent dev (regionOf l) x fuel = .ok d := by
  have hne : q ≠ [] := by rintro rfl; simp [SamePath] at hs
  obtain ⟨q', x, rfl⟩ : ∃ q' x, q = q' ++ [x] := ⟨q.dropLast, q.getLast hne, (List.dropLast_concat_getLast hne).symm⟩
  have hs' : SamePath p q' := by
    simp only [SamePath, List.map_append, List.map_cons, List.map_nil] at hs
    exact (List.append_inj' hs rfl).1
  have hq' : PlainPath q' := fun s hs => hq s (by simp [hs])
  rw [walkPath_slash dev _ fuel hne hq] at hd
  rcases walkSegments_snoc q' _ hd with ⟨rfl, h1⟩ | ⟨h0, d', tab', h1, h2, h3⟩
  · have : p = [] := by simpa [SamePath] using hs'
    subst this
    exact ⟨l0, x, h.root, h.rootDir, h1⟩
  · have hnd : NamesDir p (slashPath q') := .inr ⟨q', h0, hs', hq', rfl⟩
    obtain ⟨l, g1, g2, ⟨_, g3, _⟩ | ⟨_, _, d2, p2, e2, g3, _, g4, _⟩⟩ := dir_table h hI he.1 hnd hf
    · exfalso
      cases q' with
      | nil => exact h0 rfl
      | cons a q' =>
        have ha := (hq' a (by simp)).1
        simp only [slashPath, List.flatMap_cons, List.cons_append, List.cons.injEq, true_and,
          List.append_eq_nil_iff] at g3
        exact ha g3.1
    · rw [walkPath_slash dev _ fuel h0 hq', h1] at g3
      cases g3
      rw [h2] at g4
      cases g4
      exact ⟨l, x, g1, g2, h3⟩

theorem find_listed {items : List Item} {w : TabWriter} (hb : buildTable items = .ok w)
    {next next' : Nat} {r : DiskRepr} (hr : w.diskRepr next = .ok (r, next'))
    {dev : Dev} {tab : Region} (hP : Placed dev tab w r) {x : Str} {fuel : Nat} {d : DirEnt}
    (hf : 2 * Nat.log2 (items.length + 1) < fuel)
    (hd : findDirent dev tab x fuel = .ok d) {ds : List DirEnt}
    (hds : walkDirentTree dev tab (items.length + 1) = .ok ds) : d ∈ ds := by
  obtain ⟨sz, hsz, hle, _⟩ := hP.2
  by_cases hi : items = []
  · subst hi
    exfalso
    obtain ⟨_, c2⟩ := C23_lookup hb hr hP x
    rw [c2 (by simp) fuel hf] at hd
    cases hd
  · obtain ⟨t, ht⟩ := placed_tree hb hr hi hP hsz
    rw [findDirent_rooted ht.rooted x (height_fuel ht.bal ht.size hf)] at hd
    rw [walkDirentTree_rooted ht.rooted (by rw [ht.size]; omega)] at hds
    cases hds
    cases hfb : findBT x t with
    | none => rw [hfb] at hd; cases hd
    | some d' =>
      rw [hfb] at hd
      cases hd
      exact (visit_perm t).mem_iff.2 (findBT_mem hfb).1

/-- The children of a directory, printed. -/
theorem subdir_small {fs : SourceFs} {content : Path → Bytes} {M : PathMap TabWriter}
    {Loc : Path → Listing → Prop} {dev : Dev} (hI : Img fs.readDir content dev M Loc) {p : Path} {l : Listing}
    (hl : Loc p l) (hd : l.isDir = true) {lst : List FileEntry} (hlst : fs.readDir p = .ok lst)
    (hsm : SmallListing lst) (checked : Bool) :
    ∃ infos, (∀ fuel, lst.length < fuel → printSubdir checked dev (regionOf l) fuel = .ok infos) ∧
      TrueListing dev lst infos ∧
      ∀ x fuel d, 2 * Nat.log2 (lst.length + 1) < fuel → findDirent dev (regionOf l) x fuel = .ok d →
        readDirent dev d.offset = .ok (some d) ∧ ∃ i, printDirent checked d = .ok i ∧ Describes i d := by
  obtain ⟨lst', ds', _, a2, a3, _, a5, _⟩ := hI.list_dir hl hd
  rw [hlst] at a2; cases a2
  obtain ⟨hdir, lst', w, r, n, n', h1, h2, h3, h4, h5, h6⟩ := hI.dirs p l hl hd
  rw [hlst] at h1; cases h1
  have hlen : (lst.map (itemOf M p)).length = lst.length := List.length_map _
  obtain ⟨ds, g1, g2, g3, g4⟩ := placed_small h3 h4 h5 (by
    rw [List.map_map]; exact hsm)
  rw [hlen] at g1
  have heq : ds' = ds := by
    have k1 := a3 (lst.length + 1) (by omega)
    rw [g1 _ (by omega)] at k1
    cases k1; rfl
  subst heq
  have hlinks : ∀ d ∈ ds', d.node.left.toNat < 2 ^ 14 ∧ d.node.right.toNat < 2 ^ 14 := fun d hd =>
    ⟨(g4 d hd _ (by simp)).1, (g4 d hd _ (by simp)).1⟩
  obtain ⟨is, i1, i2, i3, i4⟩ := printDirents_small (checked := checked) hlinks
  have hoff : ∀ d ∈ ds', ∃ j ∈ is, j.offset = d.offset := by
    intro d hd
    have : d.offset ∈ is.map DirentInfo.offset := by rw [i3]; exact List.mem_map_of_mem hd
    obtain ⟨j, hj, hj'⟩ := List.mem_map.1 this
    exact ⟨j, hj, hj'⟩
  refine ⟨is, ?_, ⟨?_, 2048 * (regionOf l).sector.toNat, ?_, ?_⟩, ?_⟩
  · intro fuel hf
    unfold printSubdir
    rw [a3 fuel hf]; exact i1
  · rw [i2]
    have := a5.map Prod.fst
    simpa [List.map_map, Function.comp_def] using this
  · intro hne
    have hne' : ds' ≠ [] := by
      rintro rfl
      simp only [List.map_nil, List.map_eq_nil_iff] at i2
      exact hne i2
    obtain ⟨d, hd, hd'⟩ := g3 hne'
    obtain ⟨j, hj, hj'⟩ := hoff d hd
    exact ⟨j, hj, by rw [hj', hd']⟩
  · intro i hi
    obtain ⟨d, hd, hD⟩ := i4 i hi
    refine ⟨⟨d, by rw [hD.2.1]; exact g2 d hd, hD⟩, ?_⟩
    have key : ∀ lk ∈ [d.node.left, d.node.right], ∀ o, linkOffset lk = some o →
        ∃ j ∈ is, j.offset = 2048 * (regionOf l).sector.toNat + o := by
      intro lk hlk o ho
      obtain ⟨_, h0 | ⟨c, hc, hc'⟩⟩ := g4 d hd lk hlk
      · rw [h0] at ho; simp [linkOffset] at ho
      · unfold linkOffset at ho
        split at ho
        · cases ho
        · cases ho
          obtain ⟨j, hj, hj'⟩ := hoff c hc
          exact ⟨j, hj, by rw [hj', hc']⟩
    intro o ho
    rcases ho with ho | ho
    · rw [hD.2.2.1] at ho; exact key _ (by simp) o ho
    · rw [hD.2.2.2.1] at ho; exact key _ (by simp) o ho
  · intro x fuel d hf hfd
    have hm := find_listed h3 h4 h5 (by rw [hlen]; exact hf) hfd (by rw [hlen]; exact a3 _ (by omega))
    exact ⟨g2 d hm, printDirent_small (hlinks d hm).1 (hlinks d hm).2⟩

end Xdvdfs
