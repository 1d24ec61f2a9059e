import Verif.Proof.TableSpec

/-! # Reading a written table -/

namespace Xdvdfs

open TabWriter Spec ITree

/-- A tree of indices as a plain tree. -/
def ITree.toBT (f : Nat → β) : ITree α → BT β
  | .nil => .nil
  | .node i _ _ l r => .node (l.toBT f) (f i) (r.toBT f)

theorem ITree.toBT_inorder (f : Nat → β) (t : ITree α) :
    (t.toBT f).inorder = t.inord.map (fun x => f x.1) := by
  induction t with
  | nil => rfl
  | node i h d l r ihl ihr => simp [toBT, BT.inorder, inord, ihl, ihr]

theorem ITree.toBT_size (f : Nat → β) (t : ITree α) : (t.toBT f).size = t.idxs.length := by
  induction t with
  | nil => rfl
  | node i h d l r ihl ihr => simp [toBT, BT.size, idxs, ihl, ihr]

theorem ITree.toBT_height (f : Nat → β) (t : ITree α) : (t.toBT f).height = t.erase.height := by
  induction t with
  | nil => rfl
  | node i h d l r ihl ihr => simp [toBT, BT.height, erase, ihl, ihr]

/-- The entry the reader sees for index `i`. -/
def direntAt (base : Nat) (es : List (Ent × Listing)) (offsets : List Nat) (i : Nat) : DirEnt :=
  match es[i]?, offsets[i]? with
  | some (e, _), some o => { node := e.node, name := e.name, offset := base + o }
  | _, _ => { node := ⟨0, 0, ⟨⟨0, 0⟩, 0, 0⟩⟩, name := [], offset := 0 }

/-- Only the two attribute bytes the writer uses. -/
def AttrsOK (ds : List DirData) : Prop := ∀ d ∈ ds, d.node.attrs = 16 ∨ d.node.attrs = 32

theorem Written.facts {w : TabWriter} {next next' : Nat} {r : DiskRepr} {A' : Avl DirData}
    {T' : ITree DirData} {lens : List Nat} {es : List (Ent × Listing)}
    (W : Written w next r next' A' T' lens es) :
    lens.length = A'.tree.length ∧ es.length = A'.tree.length ∧
      (es.map Prod.fst).map Ent.len = lens ∧
      (tabBytes 0 (es.map Prod.fst)).length = total 0 lens ∧
      (∀ l ∈ lens, l % 4 = 0 ∧ 16 ≤ l ∧ l ≤ 272) ∧
      r.entryTable.length = roundUp (total 0 lens) := by
  obtain ⟨h1, h2⟩ := lensOnDisk_forall W.lens_ok
  have h3 := mkEnts_lens W.ents W.lens_ok
  have h4 := tabBytes_length 0 (es.map Prod.fst)
  rw [h3] at h4
  refine ⟨h1, (mkEnts_spec W.ents).1, h3, by omega, h2, ?_⟩
  rw [W.table, List.length_append, List.length_replicate]
  unfold roundUp
  omega

/-- One index of a written table. -/
theorem Written.at {w : TabWriter} {next next' : Nat} {r : DiskRepr} {A' : Avl DirData}
    {T' : ITree DirData} {lens : List Nat} {es : List (Ent × Listing)}
    (W : Written w next r next' A' T' lens es) {i : Nat} {n : AvlNode DirData}
    (hi : A'.tree[i]? = some n) :
    ∃ e l o, es[i]? = some (e, l) ∧ EntOf (offs 0 lens) n e l ∧ (offs 0 lens)[i]? = some o ∧
      lens[i]? = some e.len ∧ o % 4 = 0 ∧ o % 2048 + e.len ≤ 2048 ∧ o + e.len ≤ total 0 lens ∧
      (i = 0 → o = 0) ∧ (i ≠ 0 → 16 ≤ o) ∧ 16 ≤ e.len ∧
      ∃ a b, r.entryTable = a ++ (e.bytes ++ b) ∧ a.length = o := by
  obtain ⟨f1, f2, f3, f4, f5, f6⟩ := W.facts
  have hlt : i < A'.tree.length := by
    rcases Nat.lt_or_ge i A'.tree.length with h | h
    · exact h
    · rw [List.getElem?_eq_none h] at hi; cases hi
  obtain ⟨e, l, he, hent⟩ := (mkEnts_spec W.ents).2.2.2 i n hi
  have hoff : (offs 0 lens)[i]? = some ((offs 0 lens)[i]'(by rw [offs_length]; omega)) :=
    List.getElem?_eq_getElem _
  generalize (offs 0 lens)[i]'(by rw [offs_length]; omega) = o at hoff
  have hlen : lens[i]? = some e.len := by
    rw [← f3]; simp [he]
  have hg := offs_get lens 0 i o e.len hoff hlen (fun x hx => by have := f5 x hx; omega)
  have h16 := (f5 e.len (List.mem_of_getElem? hlen)).2.1
  refine ⟨e, l, o, he, hent, hoff, hlen, ?_, hg.2.1, hg.2.2, ?_, ?_, h16, ?_⟩
  · exact offs_mod4 lens 0 rfl (fun x hx => (f5 x hx).1) o (List.mem_of_getElem? hoff)
  · intro h0; subst h0
    cases lens with
    | nil => simp [offs] at hoff
    | cons a ls => rw [offs_zero] at hoff; cases hoff; rfl
  · intro h0
    cases hl0 : lens with
    | nil => rw [hl0] at hlen; simp at hlen
    | cons a ls =>
      have h0' : (offs 0 lens)[0]? = some 0 := by rw [hl0]; exact offs_zero _ _
      have := offs_disjoint lens 0 0 i 0 o a (by omega) h0' hoff (by rw [hl0]; rfl)
      have := (f5 a (by rw [hl0]; simp)).2.1
      omega
  · obtain ⟨a, b, h1, h2⟩ := tabBytes_slice (es.map Prod.fst) 0 i o e (by simp [he])
      (by rw [f3]; exact hoff)
    refine ⟨a, b ++ List.replicate ((2048 - total 0 lens % 2048) % 2048) 0xff, ?_, by omega⟩
    rw [W.table, h1]; simp

theorem Written.read_at {w : TabWriter} {next next' : Nat} {r : DiskRepr} {A' : Avl DirData}
    {T' : ITree DirData} {lens : List Nat} {es : List (Ent × Listing)}
    (W : Written w next r next' A' T' lens es) {dev : Dev} {base : Nat}
    (hd : HoldsAt dev base r.entryTable) (ha : AttrsOK (A'.tree.map AvlNode.data))
    {i : Nat} {n : AvlNode DirData} (hi : A'.tree[i]? = some n) :
    ∃ e l o, es[i]? = some (e, l) ∧ EntOf (offs 0 lens) n e l ∧ (offs 0 lens)[i]? = some o ∧
      direntAt base es (offs 0 lens) i = { node := e.node, name := e.name, offset := base + o } ∧
      readDirent dev (base + o) = .ok (some (direntAt base es (offs 0 lens) i)) := by
  obtain ⟨e, l, o, he, hent, ho, hlen, h4, h5, h6, h7, h8, h9, a, b, hab, hal⟩ := W.at hi
  have hdat : direntAt base es (offs 0 lens) i = { node := e.node, name := e.name, offset := base + o } := by
    simp [direntAt, he, ho]
  refine ⟨e, l, o, he, hent, ho, hdat, ?_⟩
  rw [hdat]
  rw [hab] at hd
  have hm := hd.mid
  rw [hal] at hm
  have hattr := ha n.data (List.mem_map_of_mem (List.mem_of_getElem? hi))
  have hat : e.node.dirent.attrs = n.data.node.attrs := by rw [hent.dirent]
  refine readDirent_ent hm ?_ ?_ ?_
  · rw [hent.dirent]
    have := encodeName_len hent.name
    show (UInt8.ofNat e.name.length).toNat = _
    simp; omega
  · rw [hat]; rcases hattr with h | h <;> rw [h] <;> decide
  · rw [hat]; rcases hattr with h | h <;> rw [h] <;> decide

theorem linkOf_val {offsets : List Nat} {i o : Nat} {lk : UInt16} (h : linkOf offsets (some i) = .ok lk)
    (ho : offsets[i]? = some o) : lk.toNat = o / 4 := by
  simp only [linkOf, Avl.vget, ho, Res.unwrap_some, Res.ok_bind] at h
  split at h
  · cases h; rw [UInt16.toNat_ofNat']; omega
  · cases h

theorem Written.linked {w : TabWriter} {next next' : Nat} {r : DiskRepr} {A' : Avl DirData}
    {T' : ITree DirData} {lens : List Nat} {es : List (Ent × Listing)}
    (W : Written w next r next' A' T' lens es) {dev : Dev} {tab : Region}
    (hd : HoldsAt dev (2048 * tab.sector.toNat) r.entryTable)
    (ha : AttrsOK (A'.tree.map AvlNode.data)) (hsz : total 0 lens ≤ tab.size.toNat) :
    ∀ (t : ITree DirData) (p : Option Nat) (lk : UInt16), Rep A'.tree p t → 0 ∉ t.idxs →
    linkOf (offs 0 lens) t.ptr = .ok lk →
    Linked dev tab lk (t.toBT (direntAt (2048 * tab.sector.toNat) es (offs 0 lens))) := by
  intro t
  induction t with
  | nil => intro p lk _ _ h; simp only [ptr_nil, linkOf] at h; cases h; rfl
  | node i hh d l r ihl ihr =>
    intro p lk hrep h0 hlk
    obtain ⟨g1, g2, g3⟩ := hrep
    obtain ⟨e, l', o, he, hent, ho, hdat, hread⟩ := W.read_at hd ha g1
    obtain ⟨e2, l2, o2, he2, _, ho2, hlen, h4, h5, h6, h7, h8, h9, _⟩ := W.at g1
    rw [he] at he2; cases he2
    rw [ho] at ho2; cases ho2
    simp only [idxs, List.mem_cons, List.mem_append, not_or] at h0
    have hv := linkOf_val hlk ho
    have h16 := h8 (fun h => h0.1 h.symm)
    have h4o : 4 * lk.toNat = o := by omega
    refine ⟨?_, ?_, by omega, ?_, ?_, ?_⟩
    · intro h; rw [h] at h4o; simp at h4o; omega
    · intro h; rw [h] at h4o; simp at h4o; omega
    · rw [h4o]; exact hread
    · rw [hdat]; exact ihl _ _ g2 h0.2.1 hent.left
    · rw [hdat]; exact ihr _ _ g3 h0.2.2 hent.right

theorem Written.rooted {w : TabWriter} {next next' : Nat} {r : DiskRepr} {A' : Avl DirData}
    {T' : ITree DirData} {lens : List Nat} {es : List (Ent × Listing)}
    (W : Written w next r next' A' T' lens es) {dev : Dev} {tab : Region}
    (hd : HoldsAt dev (2048 * tab.sector.toNat) r.entryTable) (hne : A'.tree ≠ [])
    (ha : AttrsOK (A'.tree.map AvlNode.data)) (hsz : total 0 lens ≤ tab.size.toNat) :
    Rooted dev tab (T'.toBT (direntAt (2048 * tab.sector.toNat) es (offs 0 lens))) := by
  have hidx := W.idx
  have hrep := W.wf.zip.rep
  cases T' with
  | nil =>
    simp [idxs] at hidx
    have := congrArg List.length hidx
    simp at this
    exact absurd this hne
  | node i hh d l r =>
    obtain ⟨g1, g2, g3⟩ := hrep
    have hi0 : i = 0 := by
      have := congrArg List.head? hidx
      simp [idxs, List.head?_range] at this
      exact this.2
    subst hi0
    have hnd : (0 :: (l.idxs ++ r.idxs)).Nodup := by
      have : (ITree.node 0 hh d l r).idxs.Nodup := by rw [hidx]; exact List.nodup_range
      exact this
    simp only [List.nodup_cons, List.mem_append, not_or] at hnd
    obtain ⟨e, l', o, he, hent, ho, hdat, hread⟩ := W.read_at hd ha g1
    obtain ⟨e2, l2, o2, he2, _, ho2, hlen, h4, h5, h6, h7, h8, h9, _⟩ := W.at g1
    rw [he] at he2; cases he2
    rw [ho] at ho2; cases ho2
    have ho0 := h7 rfl
    subst ho0
    refine ⟨by omega, ?_, ?_, ?_⟩
    · simpa using hread
    · rw [hdat]; exact W.linked hd ha hsz _ _ _ g2 hnd.1.1 hent.left
    · rw [hdat]; exact W.linked hd ha hsz _ _ _ g3 hnd.1.2 hent.right

theorem Written.name_at {w : TabWriter} {next next' : Nat} {r : DiskRepr} {A' : Avl DirData}
    {T' : ITree DirData} {lens : List Nat} {es : List (Ent × Listing)}
    (W : Written w next r next' A' T' lens es) (base : Nat) {i : Nat} {n : AvlNode DirData}
    (hi : A'.tree[i]? = some n) :
    (direntAt base es (offs 0 lens) i).nameStr = n.data.name := by
  obtain ⟨e, l, o, he, hent, ho, _⟩ := W.at hi
  simp only [direntAt, he, ho, DirEnt.nameStr]
  exact encodeName_decode hent.name

theorem Written.sorted {w : TabWriter} {next next' : Nat} {r : DiskRepr} {A' : Avl DirData}
    {T' : ITree DirData} {lens : List Nat} {es : List (Ent × Listing)}
    (W : Written w next r next' A' T' lens es) (base : Nat) :
    NameSorted (T'.toBT (direntAt base es (offs 0 lens))).inorder := by
  rw [ITree.toBT_inorder]
  have hs := W.wf.sorted
  unfold NameSorted
  rw [List.pairwise_map] at hs ⊢
  refine hs.imp_of_mem ?_
  rintro ⟨i, d⟩ ⟨j, d'⟩ hm hm' h
  obtain ⟨n, h1, h2⟩ := Rep.get_of_mem W.wf.zip.rep hm
  obtain ⟨n', h1', h2'⟩ := Rep.get_of_mem W.wf.zip.rep hm'
  rw [W.name_at base h1, W.name_at base h1', h2, h2']
  exact h

/-- The entries of the tree are those of the indices `0 .. n`. -/
theorem Written.inorder_perm {w : TabWriter} {next next' : Nat} {r : DiskRepr} {A' : Avl DirData}
    {T' : ITree DirData} {lens : List Nat} {es : List (Ent × Listing)}
    (W : Written w next r next' A' T' lens es) (base : Nat) :
    (T'.toBT (direntAt base es (offs 0 lens))).inorder.Perm
      ((List.range es.length).map (direntAt base es (offs 0 lens))) := by
  rw [ITree.toBT_inorder, W.facts.2.1, ← W.idx]
  have := T'.inord_idxs.map (direntAt base es (offs 0 lens))
  rw [List.map_map] at this
  exact this

end Xdvdfs
