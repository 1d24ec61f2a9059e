import Verif.Proof.Repack
import Verif.Proof.BufWriter
import Verif.Props.Avl

/-!
# What determines an image

The table of a directory is determined by its entries and the order in which they are stored, and an image by its tables
and the contents of its files.
-/

namespace Xdvdfs

open Spec Props TabWriter

/-! ## Trees -/

theorem BT.eq_of_preorder {lt : α → α → Prop} (has : ∀ a b, lt a b → ¬ lt b a) : ∀ {t t' : BT α},
    t.inorder.Pairwise lt → t'.inorder.Pairwise lt → t.preorder = t'.preorder → t = t' := by
  intro t
  induction t with
  | nil =>
    intro t' _ _ h
    cases t' with
    | nil => rfl
    | node => cases h
  | node l x r ihl ihr =>
    intro t' h1 h2 h
    cases t' with
    | nil => cases h
    | node l' x' r' =>
      simp only [BT.preorder, List.cons.injEq] at h
      obtain ⟨rfl, h⟩ := h
      simp only [BT.inorder] at h1 h2
      obtain ⟨a1, a2, a3⟩ := List.pairwise_append.1 h1
      obtain ⟨b1, b2, b3⟩ := List.pairwise_append.1 h2
      obtain ⟨a4, a5⟩ := List.pairwise_cons.1 a2
      obtain ⟨b4, b5⟩ := List.pairwise_cons.1 b2
      have dec : ∀ a, Decidable (lt a x) := fun a => Classical.propDecidable _
      have fl : ∀ {l r : BT α}, (∀ a ∈ l.inorder, lt a x) → (∀ a ∈ r.inorder, lt x a) →
          (l.preorder ++ r.preorder).filter (fun a => @decide (lt a x) (dec a)) = l.preorder := by
        intro l r hl hr
        rw [List.filter_append, List.filter_eq_self.2, List.filter_eq_nil_iff.2, List.append_nil]
        · intro a ha hc
          exact has _ _ (hr a ((BT.preorder_perm r).mem_iff.1 ha)) (of_decide_eq_true hc)
        · intro a ha
          exact decide_eq_true (hl a ((BT.preorder_perm l).mem_iff.1 ha))
      have e1 := fl (l := l) (r := r) (fun a ha => a3 a ha x List.mem_cons_self) a4
      have e2 := fl (l := l') (r := r') (fun a ha => b3 a ha x List.mem_cons_self) b4
      rw [h, e2] at e1
      have e3 : r.preorder = r'.preorder := by
        rw [← e1] at h
        exact List.append_cancel_left h
      rw [ihl a1 b1 e1.symm, ihr a5 b5 e3]

theorem ITree.eq_of_erase : ∀ {T T' : ITree α}, T.Bal → T'.Bal → T.erase = T'.erase → T.idxs = T'.idxs → T = T' := by
  intro T
  induction T with
  | nil =>
    intro T' _ _ h _
    cases T' with
    | nil => rfl
    | node => cases h
  | node i hh d l r ihl ihr =>
    intro T' h1 h2 h h3
    cases T' with
    | nil => cases h
    | node i' hh' d' l' r' =>
      simp only [erase, BT.node.injEq] at h
      simp only [idxs, List.cons.injEq] at h3
      obtain ⟨e1, rfl, e2⟩ := h
      obtain ⟨rfl, h3⟩ := h3
      obtain ⟨k1, _, _, k2, k3⟩ := h1
      obtain ⟨k1', _, _, k2', k3'⟩ := h2
      have hsz : ∀ t : ITree α, t.idxs.length = t.erase.size := by
        intro t
        induction t with
        | nil => rfl
        | node i h d l r a b => simp only [idxs, erase, BT.size, List.length_cons, List.length_append, a, b]
      obtain ⟨h4, h5⟩ := List.append_inj h3 (by rw [hsz, hsz, e1])
      have e1 := ihl k2 k2' e1 h4
      have e2 := ihr k3 k3' e2 h5
      subst e1 e2
      rw [k1, k1']

theorem ITree.Rep.all {tr tr' : List (AvlNode α)} {p : Option Nat} {T : ITree α} (h : ITree.Rep tr p T)
    (h' : ITree.Rep tr' p T) :
    ∀ i ∈ T.idxs, tr[i]? = tr'[i]? := by
  induction T generalizing p with
  | nil => simp [ITree.idxs]
  | node i hh d l r ihl ihr =>
    obtain ⟨h1, h2, h3⟩ := h
    obtain ⟨h1', h2', h3'⟩ := h'
    intro j hj
    simp only [ITree.idxs, List.mem_cons, List.mem_append] at hj
    rcases hj with rfl | hj | hj
    · rw [h1, h1']
    · exact ihl h2 h2' j hj
    · exact ihr h3 h3' j hj

/-! ## Tables -/

/-- The table of `w` is stored in the pre-order of `t`. -/
def Tab (w : TabWriter) (t : BT DirData) : Prop :=
  (t = .nil ∧ w.table.tree = []) ∨
  (w.table.tree ≠ [] ∧ ∃ A' T' lens, AvlWF cmpDirData A' T' ∧ T'.idxs = List.range A'.tree.length ∧ T'.erase = t ∧
    lensOnDisk A'.tree = .ok lens ∧ w.size = some (total 0 lens) ∧ t ≠ .nil ∧
    ∀ next, w.diskRepr next = (do
      let (es, next') ← mkEnts (offs 0 lens) A'.tree next
      pure ({ entryTable := tabBytes 0 (es.map Prod.fst) ++ List.replicate ((2048 - total 0 lens % 2048) % 2048) 0xff
              fileListing := es.map Prod.snd }, next')))

theorem tab_of {items : List Item} {w : TabWriter} (hb : buildTable items = .ok w) : ∃ t, Tab w t ∧
    t.inorder.Pairwise (fun a b => cmpDirData a b = .lt) ∧ t.Balanced ∧ t.preorder.Perm (items.map itemData) := by
  obtain ⟨w0, T, hI, hc, ht⟩ := buildTable_inv hb
  by_cases hne : w.table.tree = []
  · have hd := hI.data
    rw [← ht, hne] at hd
    exact ⟨.nil, .inl ⟨rfl, hne⟩, List.Pairwise.nil, trivial, by rw [← hd]; exact .refl _⟩
  · obtain ⟨A', T', lens, h1, h2, h3, h4, h5, _, h7⟩ := diskRepr_eq hI.wf hc hne
    have hp : T'.erase.preorder.Perm (items.map itemData) := by
      rw [← reordered_data h1 h2, ← hI.data, ← ht]
      exact h3
    refine ⟨T'.erase, .inr ⟨hne, A', T', lens, h1, h2, rfl, h4, h5, ?_, h7⟩, ?_, balanced_of_bal h1.bal, hp⟩
    · intro he
      rw [he] at hp
      have := hp.symm.eq_nil
      rw [← hI.data, ← ht] at this
      exact hne (by simpa using this)
    · rw [inorder_erase]; exact h1.sorted

theorem lensOnDisk_of_names : ∀ {ns ms : List (AvlNode DirData)},
    ns.map (fun n => n.data.name) = ms.map (fun n => n.data.name) → lensOnDisk ns = lensOnDisk ms := by
  intro ns
  induction ns with
  | nil => intro ms h; cases ms with
    | nil => rfl
    | cons => simp at h
  | cons n ns ih => intro ms h; cases ms with
    | nil => simp at h
    | cons m ms =>
      simp only [List.map_cons, List.cons.injEq] at h
      simp only [lensOnDisk, h.1, ih h.2]

theorem tree_names {A : Avl DirData} {T : ITree DirData} (h : AvlWF cmpDirData A T)
    (hi : T.idxs = List.range A.tree.length) :
    A.tree.map (fun n => n.data.name) = T.erase.preorder.map DirData.name := by
  rw [← reordered_data h hi, List.map_map]; rfl

theorem tab_size {w w' : TabWriter} {t t' : BT DirData} (h : Tab w t) (h' : Tab w' t')
    (hn : t.preorder.map DirData.name = t'.preorder.map DirData.name) : w.dirtabSize = w'.dirtabSize := by
  have ne : ∀ {t : BT DirData}, t ≠ .nil → t.preorder.map DirData.name ≠ [] := by
    intro t ht; cases t with
    | nil => exact absurd rfl ht
    | node => simp [BT.preorder]
  rcases h with ⟨rfl, h2⟩ | ⟨h1, A, T, lens, h2, h3, rfl, h5, h6, h7, _⟩
  · rcases h' with ⟨rfl, h2'⟩ | ⟨h1', A', T', lens', h2', h3', rfl, h5', h6', h7', _⟩
    · unfold dirtabSize; rw [if_pos h2, if_pos h2']
    · exact absurd hn.symm (ne h7')
  · rcases h' with ⟨rfl, h2'⟩ | ⟨h1', A', T', lens', h2', h3', rfl, h5', h6', h7', _⟩
    · exact absurd hn (ne h7)
    · unfold dirtabSize
      rw [if_neg h1, if_neg h1', h6, h6']
      rw [← tree_names h2 h3, ← tree_names h2' h3'] at hn
      rw [lensOnDisk_of_names hn, h5'] at h5
      cases h5
      rfl

theorem tab_repr {w w' : TabWriter} {t : BT DirData} (h : Tab w t) (h' : Tab w' t) (n : Nat) :
    w.diskRepr n = w'.diskRepr n := by
  rcases h with ⟨rfl, h2⟩ | ⟨h1, A, T, lens, h2, h3, rfl, h5, h6, h7, h8⟩
  · rcases h' with ⟨_, h2'⟩ | ⟨h1', A', T', lens', h2', h3', h4', h5', h6', h7', _⟩
    · unfold diskRepr; rw [if_pos h2, if_pos h2']
    · exact absurd rfl h7'
  · rcases h' with ⟨h1', h2'⟩ | ⟨h1', A', T', lens', h2', h3', h4', h5', h6', h7', h8'⟩
    · exact absurd h1' h7
    · have hl : A.tree.length = A'.tree.length := by
        have := congrArg List.length (reordered_data h2 h3)
        have := congrArg List.length (reordered_data h2' h3')
        simp only [List.length_map] at *
        rw [h4'] at this
        omega
      have hT : T = T' := ITree.eq_of_erase h2.bal h2'.bal h4'.symm (by rw [h3, h3', hl])
      subst hT
      have hA : A.tree = A'.tree := by
        apply List.ext_getElem?
        intro i
        by_cases hi : i < A.tree.length
        · exact h2.zip.rep.all h2'.zip.rep i (by rw [h3]; simpa using hi)
        · rw [List.getElem?_eq_none (by omega), List.getElem?_eq_none (by omega)]
      rw [h8, h8']
      rw [hA, h5'] at h5
      cases h5
      rw [hA]

theorem tab_names {w : TabWriter} {t : BT DirData} (h : Tab w t) {n n' : Nat} {r : DiskRepr}
    (hr : w.diskRepr n = .ok (r, n')) : r.fileListing.map Listing.name = t.preorder.map DirData.name := by
  rcases h with ⟨rfl, h2⟩ | ⟨h1, A, T, lens, h2, h3, rfl, h5, h6, h7, h8⟩
  · unfold diskRepr at hr
    rw [if_pos h2] at hr
    cases hr
    rfl
  · rw [h8] at hr
    obtain ⟨⟨es, n1⟩, hm, hr⟩ := Res.bind_eq_ok.1 hr
    cases hr
    rw [← tree_names h2 h3]
    simp only
    have : ∀ {ns : List (AvlNode DirData)} {m m' : Nat} {es : List (Ent × Listing)},
        mkEnts (offs 0 lens) ns m = .ok (es, m') → (es.map Prod.snd).map Listing.name = ns.map (fun n => n.data.name) := by
      intro ns
      induction ns with
      | nil => intro m m' es h; cases h; rfl
      | cons a ns ih =>
        intro m m' es h
        simp only [mkEnts] at h
        obtain ⟨_, _, h⟩ := Res.bind_eq_ok.1 h
        obtain ⟨_, _, h⟩ := Res.bind_eq_ok.1 h
        obtain ⟨_, _, h⟩ := Res.bind_eq_ok.1 h
        obtain ⟨_, _, h⟩ := Res.bind_eq_ok.1 h
        obtain ⟨⟨rest, _⟩, hrest, h⟩ := Res.bind_eq_ok.1 h
        cases h
        simp only [List.map_cons, ih hrest]
    exact this hm

/-! ## Plans -/

theorem cmpDirData_asymm (a b : DirData) (h : cmpDirData a b = .lt) : ¬ cmpDirData b a = .lt := by
  intro h'
  unfold cmpDirData at h h'
  rw [cmp_swap, h] at h'
  cases h'

theorem eq_of_perm_map {f : α → β} : ∀ {l l' : List α}, l.Perm l' → l.map f = l'.map f → (l.map f).Nodup → l = l' := by
  intro l l' hp hm hn
  have inj : ∀ a ∈ l, ∀ b ∈ l, f a = f b → a = b := by
    intro a ha b hb he
    obtain ⟨i, hi, rfl⟩ := List.mem_iff_getElem.1 ha
    obtain ⟨j, hj, rfl⟩ := List.mem_iff_getElem.1 hb
    have := (List.getElem_inj (i := i) (j := j) (h₀ := by simpa using hi) (h₁ := by simpa using hj) hn).1
      (by simpa using he)
    subst this; rfl
  apply List.ext_getElem hp.length_eq
  intro i h1 h2
  refine inj _ (List.getElem_mem _) _ (hp.mem_iff.2 (List.getElem_mem _)) ?_
  have : (l.map f)[i]? = (l'.map f)[i]? := by rw [hm]
  simpa [h1, h2] using this

/-- What a directory record writes. -/
def recPart (x : Rec) : Path × Nat × DiskRepr := (x.path, x.sector, x.r)

theorem sig_items {M M' : PathMap TabWriter} {p : Path} (hs : ∀ q, subSize M q = subSize M' q) {l l' : List FileEntry}
    (h : (l.map sig).Perm (l'.map sig)) : (l.map (itemOf M p)).Perm (l'.map (itemOf M' p)) := by
  have e : ∀ (M : PathMap TabWriter) (l : List FileEntry), l.map (itemOf M p) = (l.map sig).map (fun x =>
      { name := x.1, isDir := x.2.1,
        size := if x.2.1 then subSize M (p ++ [x.1]) else UInt32.ofNat (x.2.2.getD 0) }) := by
    intro M l
    rw [List.map_map]
    apply List.map_congr_left
    intro a _
    cases hd : a.isDir <;> simp [itemOf, sig, hd]
  rw [e, e]
  simp only [hs]
  exact h.map _

/-- In both plans every directory is stored in the same order. -/
def SameOrder (M M' : PathMap TabWriter) : Prop :=
  ∀ p w w' t t', M.get p = some w → M'.get p = some w' → Tab w t → Tab w' t' →
    t.preorder.map DirData.name = t'.preorder.map DirData.name

theorem same_repr {rd rd' : ReadDir} {M M' : PathMap TabWriter} (hM : TabsOK rd M) (hM' : TabsOK rd' M')
    (hg : ∀ p, (M.get p).isSome = (M'.get p).isSome)
    (hl : ∀ p l l', (M.get p).isSome → rd p = .ok l → rd' p = .ok l' → (l.map sig).Perm (l'.map sig))
    (ho : SameOrder M M') {p : Path} {w w' : TabWriter} (h : M.get p = some w) (h' : M'.get p = some w') :
    w.dirtabSize = w'.dirtabSize ∧ ∀ n, w.diskRepr n = w'.diskRepr n := by
  have hsz : ∀ q v v', M.get q = some v → M'.get q = some v' → v.dirtabSize = v'.dirtabSize := by
    intro q v v' k k'
    obtain ⟨_, _, _, b⟩ := hM.built q v k
    obtain ⟨_, _, _, b'⟩ := hM'.built q v' k'
    obtain ⟨t, ht, _⟩ := tab_of b
    obtain ⟨t', ht', _⟩ := tab_of b'
    exact tab_size ht ht' (ho q v v' t t' k k' ht ht')
  have hsub : ∀ q, subSize M q = subSize M' q := by
    intro q
    unfold subSize
    have := hg q
    cases k : M.get q with
    | none =>
      cases k' : M'.get q with
      | none => rfl
      | some v' => rw [k, k'] at this; simp at this
    | some v =>
      cases k' : M'.get q with
      | none => rw [k, k'] at this; simp at this
      | some v' => simp only; rw [hsz q v v' k k']
  refine ⟨hsz p w w' h h', ?_⟩
  obtain ⟨l, k1, _, b⟩ := hM.built p w h
  obtain ⟨l', k1', _, b'⟩ := hM'.built p w' h'
  obtain ⟨t, t1, t2, _, t4⟩ := tab_of b
  obtain ⟨t', t1', t2', _, t4'⟩ := tab_of b'
  have hp : t.preorder.Perm t'.preorder :=
    t4.trans (((sig_items hsub (hl p l l' (by rw [h]; rfl) k1 k1')).map itemData).trans t4'.symm)
  have hnd : (t.preorder.map DirData.name).Nodup := by
    rw [((BT.preorder_perm t).map DirData.name).nodup_iff, List.nodup_iff_pairwise_ne, List.pairwise_map]
    refine t2.imp ?_
    intro a c hac he
    unfold cmpDirData at hac
    rw [he, (cmp_eq_iff _ _).2 rfl] at hac
    cases hac
  have heq := eq_of_perm_map hp (ho p w w' t t' h h' t1 t1') hnd
  have := BT.eq_of_preorder cmpDirData_asymm t2 t2' heq
  subst this
  exact tab_repr t1 t1'

theorem sorted_keys : ∀ {M : PathMap α} {M' : PathMap β}, M.Sorted → M'.Sorted →
    (∀ p, (M.get p).isSome = (M'.get p).isSome) → M.map Prod.fst = M'.map Prod.fst := by
  intro M M' h h' hg
  have s : ∀ {γ : Type} {N : PathMap γ}, N.Sorted → (N.map Prod.fst).Pairwise (fun a b => cmpPath a b = .lt) := by
    intro γ N hN; rw [List.pairwise_map]; exact hN
  have mem : ∀ {γ : Type} {N : PathMap γ}, N.Sorted → ∀ p, p ∈ N.map Prod.fst ↔ (N.get p).isSome = true := by
    intro γ N hN p
    constructor
    · intro hp
      obtain ⟨⟨q, v⟩, hv, rfl⟩ := List.mem_map.1 hp
      rw [PathMap.get_of_mem hN hv]; rfl
    · intro hp
      obtain ⟨v, hv⟩ := Option.isSome_iff_exists.1 hp
      exact List.mem_map.2 ⟨_, PathMap.mem_of_get hv, rfl⟩
  have nd : ∀ {N : List Path}, N.Pairwise (fun a b => cmpPath a b = .lt) → N.Nodup := by
    intro N hN
    refine hN.imp ?_
    intro a b hab he
    rw [he, (cmpPath_eq_iff _ _).2 rfl] at hab
    cases hab
  have hp : (M.map Prod.fst).Perm (M'.map Prod.fst) :=
    (List.perm_ext_iff_of_nodup (nd (s h)) (nd (s h'))).2 (fun p => by rw [mem h, mem h', hg])
  refine List.Perm.eq_of_pairwise ?_ (s h) (s h') hp
  intro a b _ _ hab hba
  have := cmpPath_lt_trans hab hba
  rw [(cmpPath_eq_iff _ _).2 rfl] at this
  cases this

theorem chain_same : ∀ {recs recs' : List Rec} {ds : PathMap Nat} {n m m' : Nat}, Chain ds n recs m → Chain ds n recs' m' →
    recs.map Rec.path = recs'.map Rec.path →
    (∀ x ∈ recs, ∀ y ∈ recs', x.path = y.path → ∀ n, x.w.diskRepr n = y.w.diskRepr n) →
    recs.map recPart = recs'.map recPart := by
  intro recs
  induction recs with
  | nil =>
    intro recs' ds n m m' _ _ h _
    cases recs' with
    | nil => rfl
    | cons => cases h
  | cons x xs ih =>
    intro recs' ds n m m' h1 h2 h h3
    cases recs' with
    | nil => cases h
    | cons y ys =>
      simp only [List.map_cons, List.cons.injEq] at h
      obtain ⟨a1, n1, a2, a3⟩ := h1
      obtain ⟨b1, n2, b2, b3⟩ := h2
      rw [h3 x List.mem_cons_self y List.mem_cons_self h.1, b2] at a2
      simp only [Res.ok.injEq, Prod.mk.injEq] at a2
      obtain ⟨e1, rfl⟩ := a2
      rw [h.1, b1] at a1
      have e2 := Option.some.inj a1
      rw [← e1, h.1] at a3
      rw [List.map_cons, List.map_cons, ih a3 b3 h.2
        (fun x hx y hy => h3 x (List.mem_cons_of_mem _ hx) y (List.mem_cons_of_mem _ hy))]
      simp only [recPart, h.1, e1, e2]

theorem plan_same {rd rd' : ReadDir} {pts pts' : Path → Str} {D D' : List (Path × List FileEntry)}
    {M M' : PathMap TabWriter} {rootW rootW' : TabWriter} {rootSize rootSize' next next' : Nat} {recs recs' : List Rec}
    {n n' : Nat} (h : PlanShape rd pts D M rootW rootSize next recs n [])
    (h' : PlanShape rd' pts' D' M' rootW' rootSize' next' recs' n' []) (hT : SameTree rd rd') (ho : SameOrder M M') :
    recs.map recPart = recs'.map recPart ∧ rootSize = rootSize' := by
  obtain ⟨_, _, _, d4⟩ := tables_ok h.walked h.tables
  obtain ⟨_, _, _, d4'⟩ := tables_ok h'.walked h'.tables
  have hg : ∀ p, (M.get p).isSome = (M'.get p).isSome := by
    intro p
    have := (d4 p).trans ((hT.dirs p).trans (d4' p).symm)
    cases k : (M.get p).isSome <;> cases k' : (M'.get p).isSome <;> simp_all
  have hl : ∀ p l l', (M.get p).isSome → rd p = .ok l → rd' p = .ok l' → (l.map sig).Perm (l'.map sig) := by
    intro p l l' k1 k2 k3
    obtain ⟨l2, k4, k5⟩ := hT.lists p l ((d4 p).1 k1) k2
    rw [k3] at k4; cases k4; exact k5
  have hkey := sorted_keys h.tabs.sorted h'.tabs.sorted hg
  have root := (same_repr h.tabs h'.tabs hg hl ho h.rootGet h'.rootGet).1
  rw [h.size, h'.size] at root
  cases root
  have ha := h.alloc
  rw [h'.alloc] at ha
  simp only [Res.ok.injEq, Prod.mk.injEq, true_and] at ha
  subst ha
  refine ⟨chain_same h.chain h'.chain ?_ ?_, rfl⟩
  · rw [h.split, h'.split] at hkey
    simpa [List.map_map, Function.comp_def] using hkey
  · intro x hx y hy he
    have g1 := (h.recOK hx).get
    have g2 := (h'.recOK hy).get
    rw [he] at g1
    exact (same_repr h.tabs h'.tabs hg hl ho g1 g2).2

/-! ## Images -/

/-- What a directory record puts into the image. -/
def recWrites (content : Path → Bytes) (x : Path × Nat × DiskRepr) : List (Nat × Bytes) :=
  (x.2.1 * sectorSize, x.2.2.entryTable) ::
    x.2.2.fileListing.filterMap (fun l => if l.isDir then none
      else some (l.sector * sectorSize, content (x.1 ++ [l.name])))

/-- The image before padding. -/
def bodyOf (content : Path → Bytes) (parts : List (Path × Nat × DiskRepr)) (rootSize : Nat) : Bytes :=
  applyTrace [] (parts.flatMap (recWrites content) ++ [(32 * 2048, rootDesc 33 rootSize)])

/-- The image. -/
def imageOf (content : Path → Bytes) (parts : List (Path × Nat × DiskRepr)) (rootSize : Nat) : Bytes :=
  applyTrace (bodyOf content parts rootSize) (padOf (bodyOf content parts rootSize))

/-- How an image was packed. -/
structure PackedBy (fs : SourceFs) (content : Path → Bytes) (img : Bytes) (M : PathMap TabWriter)
    (Loc : Path → Listing → Prop) (l0 : Listing) (D : List (Path × List FileEntry)) (rootW : TabWriter)
    (rootSize next : Nat) (recs : List Rec) (n' : Nat) : Prop where
  shape : PlanShape fs.readDir fs.pathToString D M rootW rootSize next recs n' []
  packed : Packed fs content img M Loc l0
  files : ∀ x ∈ recs, ∀ l ∈ x.r.fileListing, l.isDir = false → ∃ e, EntryIn fs.readDir x.path e ∧ e.name = l.name ∧
    e.isDir = false ∧ (content (x.path ++ [l.name])).length = e.len
  image : img = imageOf content (recs.map recPart) rootSize
  loc : Loc = fun p l => (p, l) ∈ placedAll rootSize recs
  rootAt : l0 = rootListing rootSize

theorem applyTrace_flatMap {f : α → List (Nat × Bytes)} {g : α → List (Nat × Bytes)} : ∀ {l : List α} (img : Bytes),
    (∀ a ∈ l, ∀ img, applyTrace img (f a) = applyTrace img (g a)) →
    applyTrace img (l.flatMap f) = applyTrace img (l.flatMap g) := by
  intro l
  induction l with
  | nil => intro img _; rfl
  | cons a l ih =>
    intro img h
    rw [List.flatMap_cons, List.flatMap_cons, applyTrace_append, applyTrace_append, h a List.mem_cons_self,
      ih _ (fun b hb => h b (List.mem_cons_of_mem _ hb))]

theorem pack_packedBy {fs : SourceFs} {faults : Faults} {fuel : Nat} {s' : PackState ImgFile}
    {content : Path → Bytes} (hb : Bounded fs) (hf : FaithfulTo fs content)
    (h : createImage (fileEnv fs faults) fuel ⟨⟨[], []⟩, []⟩ = (.ok (), s')) :
    ∃ M Loc l0 D rootW rootSize next recs n', PackedBy fs content s'.dev.img M Loc l0 D rootW rootSize next recs n' := by
  obtain ⟨h1, h2⟩ := pack_end fs faults fuel [] h
  cases h2 with
  | early h2 _ => exact absurd rfl h2
  | data _ h2 _ => exact absurd rfl h2
  | desc _ h2 _ _ _ => exact absurd rfl h2
  | @pad D M rootW rootSize next recs n' P hS hD hok htr hP hend =>
    have hat : ∀ w ∈ (planOps fs.pathToString D recs).flatMap (opWrites fs) ++
      [(32 * 2048, rootDesc 33 rootSize)], At s'.dev.img w.1 w.2 := by
      rw [h1, htr]
      exact pad_at hS hb (torn_pad hP)
    have hfile : ∀ x ∈ recs, ∀ l ∈ x.r.fileListing, l.isDir = false → ∃ e, EntryIn fs.readDir x.path e ∧
        e.name = l.name ∧ e.isDir = false ∧ (content (x.path ++ [l.name])).length = e.len ∧
        (fs.copy (x.path ++ [l.name]) 0 l.size).1.flatten = content (x.path ++ [l.name]) := by
      intro y hy l hl' hd
      obtain ⟨lst, e, g1, g2, g3, g4, g5, _⟩ := hS.entry hy hl'
      obtain ⟨s1, s2⟩ := g5 (by rw [g4]; exact hd)
      have hop : Op.copy (y.path ++ [l.name]) (l.sector * sectorSize) l.size ∈ planOps fs.pathToString D recs := by
        simp only [planOps, List.mem_append]
        right; right
        refine List.mem_flatMap.2 ⟨y, hy, ?_⟩
        simp only [opsRec, List.mem_cons]
        right; right
        refine List.mem_flatMap.2 ⟨l, hl', ?_⟩
        simp [opsEntry, hd, fromBase]
      obtain ⟨k, hk⟩ := hok _ hop
      have hfa := hf y.path e k ⟨hS.dirOf hy, lst, g1, g2⟩ (by rw [g4]; exact hd)
      rw [g3, ← s1] at hfa
      obtain ⟨f1, f2⟩ := hfa hk
      exact ⟨e, ⟨hS.dirOf hy, lst, g1, g2⟩, g3, by rw [g4]; exact hd, by rw [f2, s1], f1⟩
    refine ⟨M, _, rootListing rootSize, D, rootW, rootSize, next, recs, n', hS,
      ⟨hS.img hf hok (im := s'.dev.img) (fun w hw => hat w (by simp [hw])),
      hS.allDistinct, by simp [placedAll], rfl, ?_, ?_, ⟨_, (tables_ok hS.walked hS.tables).2.2.1,
        fun q => hS.walked.mem_iff q⟩⟩, ?_, ?_, rfl, rfl⟩
    · refine readVolume_holds ?_
      have := (hat (32 * 2048, rootDesc 33 rootSize) (by simp)).holds
      rw [Nat.mul_comm]
      exact this
    · intro p hp
      obtain ⟨x, hx, rfl⟩ := List.mem_map.1 ((hS.walked.mem_iff p).2 hp)
      exact ⟨x.2, hS.walked.readDir hx⟩
    · intro x hx l hl hd
      obtain ⟨e, k1, k2, k3, k4, _⟩ := hfile x hx l hl hd
      exact ⟨e, k1, k2, k3, k4⟩
    · have hbody : applyTrace [] ((planOps fs.pathToString D recs).flatMap (opWrites fs) ++
          [(32 * 2048, rootDesc 33 rootSize)]) = bodyOf content (recs.map recPart) rootSize := by
        unfold bodyOf
        rw [applyTrace_append, applyTrace_append, planOps_writes, List.flatMap_assoc, List.flatMap_map]
        congr 1
        refine applyTrace_flatMap _ ?_
        intro x hx img
        simp only [recGroups, recWrites, recPart, List.flatMap_cons, List.singleton_append]
        show applyTrace (writeAt img _ _) _ = applyTrace (writeAt img _ _) _
        generalize writeAt img _ _ = img
        have : ∀ (ls : List Listing) (img : Bytes), (∀ l ∈ ls, l ∈ x.r.fileListing) →
            applyTrace img ((ls.filterMap (fun l => if l.isDir then none
              else some (x.path ++ [l.name], chunksAt (l.sector * sectorSize)
                (fs.copy (x.path ++ [l.name]) 0 l.size).1))).flatMap Prod.snd) =
            applyTrace img (ls.filterMap (fun l => if l.isDir then none
              else some (l.sector * sectorSize, content (x.path ++ [l.name])))) := by
          intro ls
          induction ls with
          | nil => intro img _; rfl
          | cons l ls ih =>
            intro img hls
            have hl := hls l List.mem_cons_self
            have ih := fun img => ih img (fun l hl => hls l (List.mem_cons_of_mem _ hl))
            cases hd : l.isDir with
            | true => simp only [List.filterMap_cons, hd, if_true]; exact ih img
            | false =>
              simp only [List.filterMap_cons, hd, Bool.false_eq_true, if_false, List.flatMap_cons]
              obtain ⟨e, _, _, _, _, hc⟩ := hfile x hx l hl hd
              rw [applyTrace_append, applyTrace_chunks, hc]
              exact ih _
        exact this _ _ (fun _ h => h)
      rw [h1, htr, (hend rfl).1, hbody, List.append_cons, applyTrace_append, hbody]
      rfl

theorem filterMap_same {f g : α → Option β} : ∀ {l : List α}, (∀ a ∈ l, f a = g a) → l.filterMap f = l.filterMap g := by
  intro l
  induction l with
  | nil => intro _; rfl
  | cons a l ih =>
    intro h
    rw [List.filterMap_cons, List.filterMap_cons, h a List.mem_cons_self, ih (fun b hb => h b (List.mem_cons_of_mem _ hb))]

theorem image_same {content content' : Path → Bytes} {recs : List Rec} {rootSize : Nat}
    (h : ∀ x ∈ recs, ∀ l ∈ x.r.fileListing, l.isDir = false →
      content (x.path ++ [l.name]) = content' (x.path ++ [l.name])) :
    imageOf content (recs.map recPart) rootSize = imageOf content' (recs.map recPart) rootSize := by
  have : (recs.map recPart).flatMap (recWrites content) = (recs.map recPart).flatMap (recWrites content') := by
    rw [List.flatMap_map, List.flatMap_map, List.flatMap_def, List.flatMap_def]
    congr 1
    apply List.map_congr_left
    intro x hx
    simp only [recWrites, recPart]
    congr 1
    apply filterMap_same
    intro l hl
    cases hd : l.isDir with
    | true => rfl
    | false => simp only [Bool.false_eq_true, if_false, h x hx l hl hd]
  simp only [imageOf, bodyOf, this]

/-! ## The stored order -/

theorem Packed.stored {fs : SourceFs} {content : Path → Bytes} {img : Bytes} {M : PathMap TabWriter}
    {Loc : Path → Listing → Prop} {l0 : Listing} (h : Packed fs content img M Loc l0) (hM : TabsOK fs.readDir M) {wf : Nat}
    (hwf : ScanFuel fs.readDir wf) {p : Path} {w : TabWriter} {t : BT DirData} (hp : DirOf fs.readDir p)
    (hw : M.get p = some w) (ht : Tab w t) :
    ∃ lst, imgReadDir (fileDev img) wf (regionOf l0) p = .ok lst ∧ lst.map FileEntry.name = t.preorder.map DirData.name := by
  obtain ⟨l, k1, k2, k3⟩ := h.image.table_at h.distinct h.root h.rootDir hwf hp
  obtain ⟨_, lst, w', r, n, n', g1, g2, g3, g4, g5, g6⟩ := h.image.dirs p l k1 k2
  obtain ⟨lst', b1, _, b2⟩ := hM.built p w hw
  rw [g1] at b1
  cases b1
  rw [g3] at b2
  cases b2
  obtain ⟨_, ss, _, c2, _, c4⟩ := C25_scan_agrees g3 g4 g5
  refine ⟨ss.map fileEntryOf, ?_, ?_⟩
  · simp only [imgReadDir, imgDirents, k3, Res.ok_bind, c2 wf (by simpa using hwf p lst hp g1), Res.pure_eq]
  · rw [← tab_names ht g4, ← c4, List.map_map, List.map_map]
    rfl

theorem StoredAs.order {rd rd' : ReadDir} {M M' : PathMap TabWriter}
    (h : ∀ p w t, M.get p = some w → Tab w t → ∃ lst, rd p = .ok lst ∧
      lst.map FileEntry.name = t.preorder.map DirData.name)
    (h' : ∀ p w t, M'.get p = some w → Tab w t → ∃ lst, rd' p = .ok lst ∧
      lst.map FileEntry.name = t.preorder.map DirData.name)
    (hs : ∀ p l l', (M.get p).isSome → rd p = .ok l → rd' p = .ok l' →
      l.map FileEntry.name = l'.map FileEntry.name) : SameOrder M M' := by
  intro p w w' t t' k k' ht ht'
  obtain ⟨l, a1, a2⟩ := h p w t k ht
  obtain ⟨l', b1, b2⟩ := h' p w' t' k' ht'
  rw [← a2, ← b2]
  exact hs p l l' (by rw [k]; rfl) a1 b1

end Xdvdfs
