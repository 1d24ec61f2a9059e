import Verif.Proof.Dirtab
import Verif.Spec.Dirtab
import Verif.Proof.Read

/-! # Reading back a serialized directory table -/

namespace Xdvdfs

open TabWriter Spec

/-! ## Offsets -/

theorem offs_get : ∀ (ls : List Nat) (pos k o l : Nat), (offs pos ls)[k]? = some o →
    ls[k]? = some l → (∀ x ∈ ls, 0 < x ∧ x ≤ 2048) →
    pos ≤ o ∧ o % 2048 + l ≤ 2048 ∧ o + l ≤ total pos ls := by
  intro ls
  induction ls with
  | nil => intro pos k o l h; simp [offs] at h
  | cons a ls ih =>
    intro pos k o l ho hl hx
    have ha := hx a (by simp)
    have hp := le_place pos a
    simp only [offs] at ho
    simp only [total]
    cases k with
    | zero =>
      simp only [List.getElem?_cons_zero, Option.some.injEq] at ho hl
      subst ho hl
      refine ⟨hp, ?_, le_total _ _⟩
      rcases place_cases (pos := pos) ha.1 ha.2 with ⟨h1, h2⟩ | ⟨h1, h2, h3⟩ <;> rw [h1] <;> omega
    | succ k =>
      simp only [List.getElem?_cons_succ] at ho hl
      have := ih _ k o l ho hl (fun x hx' => hx x (by simp [hx']))
      omega

theorem offs_mod4 : ∀ (ls : List Nat) (pos : Nat), pos % 4 = 0 → (∀ x ∈ ls, x % 4 = 0) →
    ∀ o ∈ offs pos ls, o % 4 = 0 := by
  intro ls
  induction ls with
  | nil => intro pos _ _ o ho; simp [offs] at ho
  | cons a ls ih =>
    intro pos hp hx o ho
    simp only [offs, List.mem_cons] at ho
    have h1 := place_mod4 (l := a) hp
    have h2 := hx a (by simp)
    rcases ho with rfl | ho
    · exact h1
    · exact ih _ (by omega) (fun x hx' => hx x (by simp [hx'])) o ho

theorem offs_disjoint : ∀ (ls : List Nat) (pos i j oi oj li : Nat), i < j →
    (offs pos ls)[i]? = some oi → (offs pos ls)[j]? = some oj → ls[i]? = some li →
    oi + li ≤ oj := by
  intro ls
  induction ls with
  | nil => intro pos i j oi oj li _ h; simp [offs] at h
  | cons a ls ih =>
    intro pos i j oi oj li hij hi hj hl
    obtain ⟨j, rfl⟩ : ∃ j', j = j' + 1 := ⟨j - 1, by omega⟩
    simp only [offs] at hi hj
    simp only [List.getElem?_cons_succ] at hj
    cases i with
    | zero =>
      simp only [List.getElem?_cons_zero, Option.some.injEq] at hi hl
      subst hi hl
      -- every later offset is at least the end of the first entry
      have key : ∀ (ls : List Nat) (p k o : Nat), (offs p ls)[k]? = some o → p ≤ o := by
        intro ls
        induction ls with
        | nil => intro p k o h; simp [offs] at h
        | cons b ls ih =>
          intro p k o h
          simp only [offs] at h
          have := le_place p b
          cases k with
          | zero => simp only [List.getElem?_cons_zero, Option.some.injEq] at h; omega
          | succ k => simp only [List.getElem?_cons_succ] at h; have := ih _ k o h; omega
      exact key _ _ _ _ hj
    | succ i =>
      simp only [List.getElem?_cons_succ] at hi hl
      exact ih _ i j oi oj li (by omega) hi hj hl

theorem offs_last : ∀ (ls : List Nat) (pos o l : Nat), (offs pos ls)[ls.length - 1]? = some o →
    ls[ls.length - 1]? = some l → o + l = total pos ls := by
  intro ls
  induction ls with
  | nil => intro pos o l h; simp [offs] at h
  | cons a ls ih =>
    intro pos o l ho hl
    cases hls : ls with
    | nil =>
      subst hls
      simp [offs] at ho hl
      subst ho hl
      simp [total]
    | cons b bs =>
      have h1 : (a :: ls).length - 1 = (ls.length - 1) + 1 := by rw [hls]; simp
      rw [h1] at ho hl
      simp only [offs, List.getElem?_cons_succ] at ho hl
      rw [← hls]
      simp only [total]
      exact ih _ o l ho hl

theorem offs_zero (l : Nat) (ls : List Nat) : (offs 0 (l :: ls))[0]? = some 0 := by
  simp [offs, place, pad]

theorem tabBytes_slice : ∀ (es : List Ent) (pos k o : Nat) (e : Ent),
    es[k]? = some e → (offs pos (es.map Ent.len))[k]? = some o →
    ∃ a b, tabBytes pos es = a ++ (e.bytes ++ b) ∧ pos + a.length = o := by
  intro es
  induction es with
  | nil => intro pos k o e h; simp at h
  | cons f es ih =>
    intro pos k o e he ho
    simp only [List.map_cons, offs] at ho
    cases k with
    | zero =>
      simp only [List.getElem?_cons_zero, Option.some.injEq] at he ho
      subst he ho
      exact ⟨_, _, rfl, by simp [place]⟩
    | succ k =>
      simp only [List.getElem?_cons_succ] at he ho
      obtain ⟨a, b, h1, h2⟩ := ih _ k o e he ho
      refine ⟨List.replicate (pad pos f.len) 0xff ++ (f.bytes ++ a), b, ?_, ?_⟩
      · simp [tabBytes, h1]
      · have h3 : f.bytes.length = f.len := entryBytes_length _ _
        have : place pos f.len = pos + pad pos f.len := rfl
        simp only [List.length_append, List.length_replicate]; omega

/-! ## Entries -/

/-- What the serialization loop produces for one node. -/
structure EntOf (offsets : List Nat) (node : AvlNode DirData) (e : Ent) (l : Listing) : Prop where
  name : encodeName node.data.name = .ok e.name
  left : linkOf offsets node.left = .ok e.node.left
  right : linkOf offsets node.right = .ok e.node.right
  dirent : e.node.dirent = ⟨⟨UInt32.ofNat l.sector, node.data.node.data.size⟩,
    node.data.node.attrs, UInt8.ofNat e.name.length⟩
  lname : l.name = node.data.name
  lsize : l.size = node.data.node.data.size.toNat
  lisDir : l.isDir = (node.data.node.attrs &&& 0x10 != 0)
  lsector : l.sector < 2 ^ 32

/-- Consecutive allocations starting at `s` and ending before `e`. -/
def AllocChain : Nat → List Listing → Nat → Prop
  | s, [], e => s = e
  | s, l :: ls, e => l.sector = s ∧ AllocChain (s + secs l.size) ls e

theorem mkEnts_spec {offsets : List Nat} : ∀ {nodes : List (AvlNode DirData)} {next : Nat}
    {es : List (Ent × Listing)} {next' : Nat}, mkEnts offsets nodes next = .ok (es, next') →
    es.length = nodes.length ∧ AllocChain next (es.map Prod.snd) next' ∧
    (nodes ≠ [] → next' < 2 ^ 32) ∧
    (∀ (k : Nat) (node : AvlNode DirData), nodes[k]? = some node →
      ∃ e l, es[k]? = some (e, l) ∧ EntOf offsets node e l) := by
  intro nodes
  induction nodes with
  | nil => intro next es next' h; simp only [mkEnts] at h; cases h; simp [AllocChain]
  | cons node nodes ih =>
    intro next es next' h
    simp only [mkEnts, Res.bind_eq_ok] at h
    obtain ⟨nm, hnm, lf, hlf, rt, hrt, ⟨s, n1⟩, ha, ⟨rest, n2⟩, hr, h⟩ := h
    cases h
    obtain ⟨rfl, rfl, hlt⟩ := allocate_eq ha
    obtain ⟨h1, h2, h3, h4⟩ := ih hr
    refine ⟨by simp [h1], ⟨rfl, h2⟩, ?_, ?_⟩
    · intro _
      cases nodes with
      | nil => simp only [mkEnts] at hr; cases hr; exact hlt
      | cons => exact h3 (by simp)
    · intro k nd hk
      cases k with
      | zero =>
        simp only [List.getElem?_cons_zero, Option.some.injEq] at hk
        subst hk
        exact ⟨_, _, rfl, ⟨hnm, hlf, hrt, rfl, rfl, rfl, rfl, by
          have := one_le_secs node.data.node.data.size.toNat
          show s < 2 ^ 32
          omega⟩⟩
      | succ k => simpa using h4 k nd (by simpa using hk)

theorem mkEnts_lens {offsets : List Nat} : ∀ {nodes : List (AvlNode DirData)} {next : Nat}
    {es : List (Ent × Listing)} {next' : Nat} {lens : List Nat},
    mkEnts offsets nodes next = .ok (es, next') → lensOnDisk nodes = .ok lens →
    (es.map Prod.fst).map Ent.len = lens := by
  intro nodes
  induction nodes with
  | nil =>
    intro next es next' lens h hl
    simp only [mkEnts] at h; cases h
    simp only [lensOnDisk] at hl; cases hl; rfl
  | cons node nodes ih =>
    intro next es next' lens h hl
    simp only [mkEnts, Res.bind_eq_ok] at h
    obtain ⟨nm, hnm, lf, hlf, rt, hrt, ⟨s, n1⟩, ha, ⟨rest, n2⟩, hr, h⟩ := h
    cases h
    simp only [lensOnDisk, lenOnDisk_eq hnm, Res.ok_bind, Res.bind_eq_ok] at hl
    obtain ⟨ls, hls, hl⟩ := hl
    cases hl
    simp [ih hr hls, Ent.len]

/-! ## Devices holding a table -/

theorem slice_mid (a x b : Bytes) (o n : Nat) (h : o + n ≤ x.length) :
    slice (a ++ (x ++ b)) (a.length + o) n = slice x o n := by
  unfold slice
  rw [← List.drop_drop, List.drop_left, List.drop_append_of_le_length (by omega),
    List.take_append_of_le_length (by simp; omega)]

theorem HoldsAt.mid {dev : Dev} {base : Nat} {a x b : Bytes} (h : HoldsAt dev base (a ++ (x ++ b))) :
    HoldsAt dev (base + a.length) x := by
  intro o n hn
  rw [Nat.add_assoc, h _ _ (by simp; omega), slice_mid _ _ _ _ _ hn]

theorem ser_length (n : DiskNode) : n.ser.length = 14 := by simp [DiskNode.ser, natLE]

theorem deserDirentNode_ser {n : DiskNode} (h0 : n.dirent.attrs ≠ 0) (hf : n.dirent.attrs ≠ 0xff) :
    deserDirentNode n.ser = some n := by
  have hd := DiskNode.deser_ser n
  unfold deserDirentNode
  rw [if_neg]
  · exact hd
  · rintro (h | h) <;> rw [h] at hd <;> simp [DiskNode.deser, List.replicate] at hd <;>
      rw [← hd] at h0 hf <;> simp at h0 hf

theorem readDirent_ent {dev : Dev} {base : Nat} {e : Ent} (h : HoldsAt dev base e.bytes)
    (hn : e.node.dirent.nameLen.toNat = e.name.length)
    (h0 : e.node.dirent.attrs ≠ 0) (hf : e.node.dirent.attrs ≠ 0xff) :
    readDirent dev base = .ok (some { node := e.node, name := e.name, offset := base }) := by
  have hl : e.bytes.length = elen e.name.length := entryBytes_length _ _
  have hb : e.name.length ≤ 255 := by
    rw [← hn]; have := e.node.dirent.nameLen.toNat_lt; omega
  have hel := elen_spec hb
  have e1 := h 0 14 (by omega)
  have e2 := h 14 e.name.length (by omega)
  rw [Nat.add_zero] at e1
  have s1 : slice e.bytes 0 14 = e.node.ser := by
    unfold Ent.bytes entryBytes
    simp only [List.append_assoc]
    exact slice_append_left _ _ _ (ser_length _)
  have s2 : slice e.bytes 14 e.name.length = e.name := by
    unfold Ent.bytes entryBytes
    simp only [List.append_assoc]
    rw [slice_append_right _ _ _ _ (by rw [ser_length]; omega), ser_length]
    exact slice_append_left _ _ _ rfl
  unfold readDirent
  rw [e1, s1]
  simp only [Res.ok_bind, deserDirentNode_ser h0 hf]
  rw [hn, e2, s2]
  rfl

/-! ## Tables as trees -/

/-- The entries reachable through link `lk` form the tree `t` (link 0 is the empty tree). -/
def Linked (dev : Dev) (tab : Region) : UInt16 → BT DirEnt → Prop
  | lk, .nil => lk = 0
  | lk, .node l d r => lk ≠ 0 ∧ lk ≠ 0xffff ∧ 4 * lk.toNat < tab.size.toNat ∧
      readDirent dev (2048 * tab.sector.toNat + 4 * lk.toNat) = .ok (some d) ∧
      Linked dev tab d.node.left l ∧ Linked dev tab d.node.right r

/-- The table holds the non-empty tree `t`, its root at offset 0. -/
def Rooted (dev : Dev) (tab : Region) : BT DirEnt → Prop
  | .nil => False
  | .node l d r => 0 < tab.size.toNat ∧ readDirent dev (2048 * tab.sector.toNat) = .ok (some d) ∧
      Linked dev tab d.node.left l ∧ Linked dev tab d.node.right r

/-- Entries sorted by name, ignoring case. -/
def NameSorted (ds : List DirEnt) : Prop :=
  ds.Pairwise (fun a b => cmpIgnoreCase a.nameStr b.nameStr = .lt)

/-- Binary search by name. -/
def findBT (name : Str) : BT DirEnt → Option DirEnt
  | .nil => none
  | .node l d r =>
    match cmpIgnoreCase name d.nameStr with
    | .eq => some d
    | .lt => findBT name l
    | .gt => findBT name r

theorem findLoop_at {dev : Dev} {tab : Region} (name : Str) : ∀ (t l r : BT DirEnt)
    (d : DirEnt) (a fuel : Nat), t = .node l d r →
    readDirent dev a = .ok (some d) → Linked dev tab d.node.left l → Linked dev tab d.node.right r →
    t.height ≤ fuel →
    findLoop dev tab name fuel a = Res.ofOption .doesNotExist (findBT name t) := by
  intro t
  induction t with
  | nil => intro l r d a fuel h; cases h
  | node tl td tr ihl ihr =>
    intro l r d a fuel ht hr hl hrr hf
    cases ht
    have side (c : BT DirEnt) (lk : UInt16) (f : Nat) (hc : Linked dev tab lk c) (hcf : c.height ≤ f)
        (ihc : ∀ (l r : BT DirEnt) (d : DirEnt) (a fuel : Nat), c = .node l d r →
          readDirent dev a = .ok (some d) → Linked dev tab d.node.left l →
          Linked dev tab d.node.right r → c.height ≤ fuel →
          findLoop dev tab name fuel a = Res.ofOption .doesNotExist (findBT name c)) :
        (if lk = 0 then (.err .doesNotExist : Res DirEnt) else do
          let off ← tab.offset (4 * lk.toNat)
          findLoop dev tab name f off) = Res.ofOption .doesNotExist (findBT name c) := by
      cases c with
      | nil =>
        have : lk = 0 := hc
        rw [if_pos this]; rfl
      | node cl cd cr =>
        obtain ⟨h1, h2, h3, h4, h5, h6⟩ := hc
        rw [if_neg h1, Region.offset_of_lt h3]
        simp only [Res.ok_bind]
        exact ihc _ _ _ _ _ rfl h4 h5 h6 hcf
    simp only [BT.height] at hf
    obtain ⟨f, rfl⟩ : ∃ f, fuel = f + 1 := ⟨fuel - 1, by omega⟩
    unfold findLoop
    simp only [hr, Res.ok_bind, Res.ofOption_some]
    cases hc : cmpIgnoreCase name td.nameStr with
    | eq => simp [findBT, hc]
    | lt =>
      simp only [findBT, hc, Res.pure_eq, Res.ok_bind]
      exact side tl _ f hl (by omega) ihl
    | gt =>
      simp only [findBT, hc, Res.pure_eq, Res.ok_bind]
      exact side tr _ f hrr (by omega) ihr

theorem findDirent_rooted {dev : Dev} {tab : Region} {t : BT DirEnt} (h : Rooted dev tab t)
    (name : Str) {fuel : Nat} (hf : t.height ≤ fuel) :
    findDirent dev tab name fuel = Res.ofOption .doesNotExist (findBT name t) := by
  cases t with
  | nil => exact absurd h id
  | node l d r =>
    obtain ⟨h1, h2, h3, h4⟩ := h
    unfold findDirent
    have he : ¬ tab.isEmpty = true := by
      intro h; simp [Region.isEmpty] at h; rw [h] at h1; simp at h1
    rw [if_neg he, Region.offset_of_lt h1]
    simp only [Res.ok_bind, Nat.add_zero]
    exact findLoop_at name _ l r d _ _ rfl h2 h3 h4 hf

theorem findBT_mem {name : Str} {t : BT DirEnt} {d : DirEnt} (h : findBT name t = some d) :
    d ∈ t.inorder ∧ cmpIgnoreCase name d.nameStr = .eq := by
  induction t with
  | nil => cases h
  | node l x r ihl ihr =>
    simp only [findBT] at h
    split at h
    · cases h; exact ⟨by simp [BT.inorder], by assumption⟩
    · have := ihl h; exact ⟨by simp [BT.inorder, this.1], this.2⟩
    · have := ihr h; exact ⟨by simp [BT.inorder, this.1], this.2⟩

theorem findBT_of_mem {name : Str} {t : BT DirEnt} (hs : NameSorted t.inorder) {d : DirEnt}
    (hd : d ∈ t.inorder) (hc : cmpIgnoreCase name d.nameStr = .eq) : findBT name t = some d := by
  induction t with
  | nil => simp [BT.inorder] at hd
  | node l x r ihl ihr =>
    simp only [BT.inorder, NameSorted, List.pairwise_append, List.pairwise_cons, List.mem_cons] at hs
    obtain ⟨h1, ⟨h2, h3⟩, h4⟩ := hs
    simp only [BT.inorder, List.mem_append, List.mem_cons] at hd
    simp only [findBT]
    rcases hd with hd | rfl | hd
    · have h5 : cmpIgnoreCase name x.nameStr = .lt := by
        rw [cmp_congr_left hc]; exact h4 d hd x (.inl rfl)
      rw [h5]; exact ihl h1 hd
    · rw [hc]
    · have h5 : cmpIgnoreCase name x.nameStr = .gt := by
        rw [cmp_congr_left hc, cmp_swap, h2 d hd]; rfl
      rw [h5]; exact ihr h3 hd

/-! ## Tree walk -/

/-- Order in which the walk visits a tree: node, right subtree, left subtree. -/
def visit : BT DirEnt → List DirEnt
  | .nil => []
  | .node l d r => d :: (visit r ++ visit l)

theorem visit_perm (t : BT DirEnt) : (visit t).Perm t.inorder := by
  induction t with
  | nil => exact .refl _
  | node l d r ihl ihr =>
    simp only [visit, BT.inorder]
    refine List.Perm.trans ?_ List.perm_middle.symm
    exact .cons _ (List.perm_append_comm.trans (ihl.append ihr))

theorem visit_length (t : BT DirEnt) : (visit t).length = t.size := by
  induction t with
  | nil => rfl
  | node l d r ihl ihr => simp [visit, BT.size, ihl, ihr]; omega

/-- Stack entries of the walk: offset and the tree it designates. -/
def StackOK (dev : Dev) (tab : Region) : List Nat → List (BT DirEnt) → Prop
  | [], [] => True
  | o :: os, t :: ts => o < tab.size.toNat ∧
      (∃ l d r, t = .node l d r ∧ readDirent dev (2048 * tab.sector.toNat + o) = .ok (some d) ∧
        Linked dev tab d.node.left l ∧ Linked dev tab d.node.right r) ∧ StackOK dev tab os ts
  | _, _ => False

/-- The non-empty trees of a list. -/
def nonNil : List (BT DirEnt) → List (BT DirEnt)
  | [] => []
  | .nil :: ts => nonNil ts
  | .node l d r :: ts => .node l d r :: nonNil ts

theorem walkLoop_stack {dev : Dev} {tab : Region} : ∀ (fuel : Nat) (stack : List Nat)
    (ts : List (BT DirEnt)) (acc : List DirEnt), StackOK dev tab stack ts →
    (ts.map BT.size).sum ≤ fuel →
    walkLoop dev tab fuel stack acc = .ok (acc.reverse ++ ts.flatMap visit) := by
  intro fuel
  induction fuel with
  | zero =>
    intro stack ts acc hs hf
    match stack, ts, hs with
    | [], [], _ => simp [walkLoop]
    | o :: os, t :: ts, ⟨_, ⟨l, d, r, ht, _⟩, _⟩ => subst ht; simp [BT.size] at hf
  | succ fuel ih =>
    intro stack ts acc hs hf
    match stack, ts, hs with
    | [], [], _ => simp [walkLoop]
    | o :: os, t :: ts, ⟨h1, ⟨l, d, r, ht, h2, h3, h4⟩, h5⟩ =>
      subst ht
      unfold walkLoop
      rw [Region.offset_of_lt h1]
      simp only [Res.ok_bind, h2]
      have push (c : BT DirEnt) (lk : UInt16) (os : List Nat) (ts : List (BT DirEnt))
          (hc : Linked dev tab lk c) (ho : StackOK dev tab os ts) :
          StackOK dev tab (if lk ≠ 0 ∧ lk ≠ 0xffff then 4 * lk.toNat :: os else os)
            (nonNil [c] ++ ts) := by
        cases c with
        | nil =>
          have : lk = 0 := hc
          rw [if_neg (by simp [this])]; exact ho
        | node cl cd cr =>
          obtain ⟨g1, g2, g3, g4, g5, g6⟩ := hc
          rw [if_pos ⟨g1, g2⟩]
          exact ⟨g3, ⟨_, _, _, rfl, g4, g5, g6⟩, ho⟩
      have hst := push r _ _ _ h4 (push l _ _ _ h3 h5)
      have nn (c : BT DirEnt) : (nonNil [c]).flatMap visit = visit c := by
        cases c <;> simp [nonNil, visit]
      have ns (c : BT DirEnt) : ((nonNil [c]).map BT.size).sum = c.size := by
        cases c <;> simp [nonNil, BT.size]
      rw [show pushChildren d.node os = (if d.node.right ≠ 0 ∧ d.node.right ≠ 0xffff then
        4 * d.node.right.toNat :: (if d.node.left ≠ 0 ∧ d.node.left ≠ 0xffff then
          4 * d.node.left.toNat :: os else os) else (if d.node.left ≠ 0 ∧ d.node.left ≠ 0xffff then
          4 * d.node.left.toNat :: os else os)) from rfl]
      rw [ih _ _ _ hst]
      · simp [visit, List.flatMap_append, nn]
      · simp only [List.map_append, List.sum_append, ns, List.map_cons, List.sum_cons, BT.size] at hf ⊢
        omega

theorem walkDirentTree_rooted {dev : Dev} {tab : Region} {t : BT DirEnt} (h : Rooted dev tab t)
    {fuel : Nat} (hf : t.size ≤ fuel) : walkDirentTree dev tab fuel = .ok (visit t) := by
  cases t with
  | nil => exact absurd h id
  | node l d r =>
    obtain ⟨h1, h2, h3, h4⟩ := h
    unfold walkDirentTree
    have he : ¬ tab.isEmpty = true := by
      intro h; simp [Region.isEmpty] at h; rw [h] at h1; simp at h1
    rw [if_neg he, walkLoop_stack fuel [0] [.node l d r] [] ⟨h1, ⟨l, d, r, rfl, h2, h3, h4⟩, trivial⟩
      (by simpa using hf)]
    simp

end Xdvdfs
