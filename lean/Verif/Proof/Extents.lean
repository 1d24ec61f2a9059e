import Verif.Proof.PlanFacts

/-!
# Where everything is placed
-/

namespace Xdvdfs

open TabWriter Spec Props

/-- The entries of one directory with their paths. -/
def tagged (x : Rec) : List (Path × Listing) := x.r.fileListing.map (fun l => (x.path ++ [l.name], l))

/-- The place of the root directory, in the form of a listing entry. -/
def rootListing (rootSize : Nat) : Listing := ⟨[], 33, rootSize, true⟩

/-- Everything that gets sectors, with paths. -/
def placedAll (rootSize : Nat) (recs : List Rec) : List (Path × Listing) :=
  ([], rootListing rootSize) :: recs.flatMap tagged

theorem consecutive_append : ∀ {a b : List Listing} {s m e : Nat}, Consecutive s a m →
    Consecutive m b e → Consecutive s (a ++ b) e := by
  intro a
  induction a with
  | nil => intro b s m e h1 h2; cases h1; exact h2
  | cons l a ih => intro b s m e h1 h2; exact ⟨h1.1, ih h1.2 h2⟩

theorem addSubs_get {path : Path} : ∀ {ls : List Listing} {ds : PathMap Nat} {p : Path} {s : Nat},
    (addSubs path ds ls).get p = some s →
    ds.get p = some s ∨ ∃ l ∈ ls, l.isDir = true ∧ p = path ++ [l.name] ∧ l.sector = s := by
  intro ls
  induction ls with
  | nil => intro ds p s h; exact .inl h
  | cons l ls ih =>
    intro ds p s h
    simp only [addSubs] at h
    rcases ih h with h | ⟨l', h1, h2⟩
    · split at h
      · next hd =>
        rw [PathMap.get_insert] at h
        split at h
        · next he => cases h; exact .inr ⟨l, by simp, hd, he, rfl⟩
        · exact .inl h
      · exact .inl h
    · exact .inr ⟨l', by simp [h1], h2⟩

theorem addSubs_mono {path : Path} : ∀ {ls : List Listing} {ds : PathMap Nat} {p : Path},
    ((ds.get p).isSome = true ∨ ∃ l ∈ ls, l.isDir = true ∧ p = path ++ [l.name]) →
    ((addSubs path ds ls).get p).isSome = true := by
  intro ls
  induction ls with
  | nil => intro ds p h; simpa [addSubs] using h
  | cons l ls ih =>
    intro ds p h
    simp only [addSubs]
    apply ih
    rcases h with h | ⟨l', hl', h1, h2⟩
    · left
      split
      · rw [PathMap.get_insert]; split
        · rfl
        · exact h
      · exact h
    · rcases List.mem_cons.1 hl' with rfl | hl'
      · left
        rw [if_pos h1, PathMap.get_insert, if_pos (show p = fromBase path l'.name from h2)]; rfl
      · right; exact ⟨l', hl', h1, h2⟩

/-- Sectors looked up for directories come from entries placed before. -/
theorem Chain.sound : ∀ {recs : List Rec} {ds : PathMap Nat} {n n' : Nat} {T : List (Path × Listing)},
    Chain ds n recs n' →
    (∀ p s, ds.get p = some s → ∃ l, (p, l) ∈ T ∧ l.isDir = true ∧ l.sector = s) →
    ∀ x ∈ recs, ∃ l, (x.path, l) ∈ T ++ recs.flatMap tagged ∧ l.isDir = true ∧ l.sector = x.sector := by
  intro recs
  induction recs with
  | nil => simp
  | cons y recs ih =>
    intro ds n n' T h hT x hx
    obtain ⟨h1, n1, h2, h3⟩ := h
    rcases List.mem_cons.1 hx with rfl | hx
    · obtain ⟨l, k1, k2, k3⟩ := hT _ _ h1
      exact ⟨l, by simp [k1], k2, k3⟩
    · have := ih (T := T ++ tagged y) h3 (by
        intro p s hp
        rcases addSubs_get hp with hp | ⟨l, hl, hd, hpe, hs⟩
        · obtain ⟨l, k1, k2, k3⟩ := hT _ _ hp
          exact ⟨l, by simp [k1], k2, k3⟩
        · refine ⟨l, ?_, hd, hs⟩
          simp only [List.mem_append, tagged, List.mem_map]
          exact .inr ⟨l, hl, by rw [hpe]⟩) x hx
      obtain ⟨l, k1, k2, k3⟩ := this
      exact ⟨l, by simpa [List.append_assoc] using k1, k2, k3⟩

/-- A record of a directory of the source. -/
structure RecOK (rd : ReadDir) (M : PathMap TabWriter) (x : Rec) : Prop where
  get : M.get x.path = some x.w
  built : ∃ l, rd x.path = .ok l ∧ (∀ e ∈ l, EntryOK M x.path e) ∧
    buildTable (l.map (itemOf M x.path)) = .ok x.w
  repr : ∃ n n', x.w.diskRepr n = .ok (x.r, n')

theorem Chain.repr : ∀ {recs : List Rec} {ds : PathMap Nat} {n n' : Nat}, Chain ds n recs n' →
    ∀ x ∈ recs, ∃ n n', x.w.diskRepr n = .ok (x.r, n') := by
  intro recs
  induction recs with
  | nil => simp
  | cons y recs ih =>
    intro ds n n' h x hx
    obtain ⟨h1, n1, h2, h3⟩ := h
    rcases List.mem_cons.1 hx with rfl | hx
    · exact ⟨_, _, h2⟩
    · exact ih h3 x hx

theorem Chain.consecutive : ∀ {recs : List Rec} {ds : PathMap Nat} {n n' : Nat}, Chain ds n recs n' →
    (∀ x ∈ recs, ∃ items, buildTable items = .ok x.w) → n < 2 ^ 32 →
    Consecutive n ((recs.flatMap tagged).map Prod.snd) n' ∧ n' < 2 ^ 32 := by
  intro recs
  induction recs with
  | nil => intro ds n n' h _ hn; cases h; exact ⟨rfl, hn⟩
  | cons y recs ih =>
    intro ds n n' h hb hn
    obtain ⟨h1, n1, h2, h3⟩ := h
    obtain ⟨items, hi⟩ := hb y (by simp)
    obtain ⟨k1, k2, k3⟩ := table_listing hi h2
    have hn1 : n1 < 2 ^ 32 := by
      by_cases he : items = []
      · subst he
        obtain ⟨_, ⟨_, _, e3, _⟩ | ⟨e1, _⟩⟩ := table_written hi h2
        · omega
        · exact absurd rfl e1
      · exact k3 he
    obtain ⟨i1, i2⟩ := ih h3 (fun x hx => hb x (by simp [hx])) hn1
    refine ⟨?_, i2⟩
    simp only [List.flatMap_cons, List.map_append]
    refine consecutive_append ?_ i1
    have : (tagged y).map Prod.snd = y.r.fileListing := by
      simp only [tagged, List.map_map]
      exact List.map_id'' (fun _ => rfl) _
    rw [this]; exact k2

variable {rd : ReadDir} {pts : Path → Str} {D : List (Path × List FileEntry)}
  {M : PathMap TabWriter} {rootW : TabWriter} {rootSize next : Nat} {recs : List Rec} {n' : Nat}
  {rest : PathMap TabWriter}

theorem PlanShape.tabs (h : PlanShape rd pts D M rootW rootSize next recs n' rest) :
    TabsOK rd M := (tables_ok h.walked h.tables).1

theorem PlanShape.recOK (h : PlanShape rd pts D M rootW rootSize next recs n' rest) {x : Rec}
    (hx : x ∈ recs) : RecOK rd M x := by
  have hm : (x.path, x.w) ∈ M := by
    rw [h.split]
    exact List.mem_append_left _ (List.mem_map.2 ⟨x, hx, rfl⟩)
  have hg := PathMap.get_of_mem h.tabs.sorted hm
  exact ⟨hg, h.tabs.built _ _ hg, h.chain.repr x hx⟩

theorem PlanShape.rootGet (h : PlanShape rd pts D M rootW rootSize next recs n' rest) :
    M.get [] = some rootW :=
  PathMap.get_of_mem h.tabs.sorted (List.mem_of_mem_head? h.head)

theorem PlanShape.rootLt (h : PlanShape rd pts D M rootW rootSize next recs n' rest) :
    rootSize < 2 ^ 32 := by
  obtain ⟨n, h1, h2⟩ := h.tabs.sized _ _ h.rootGet
  rw [h.size] at h1; cases h1; exact h2

theorem PlanShape.nextEq (h : PlanShape rd pts D M rootW rootSize next recs n' rest) :
    next = 33 + sectorsFor rootSize ∧ next < 2 ^ 32 := by
  have := allocate_eq h.alloc
  rw [← secs_eq_sectorsFor]
  simp only [allocInit] at this
  omega

/-- Consecutive placement of everything. -/
theorem PlanShape.consecutive (h : PlanShape rd pts D M rootW rootSize next recs n' rest) :
    Consecutive 33 ((placedAll rootSize recs).map Prod.snd) n' ∧ n' < 2 ^ 32 := by
  obtain ⟨h1, h2⟩ := h.nextEq
  obtain ⟨k1, k2⟩ := h.chain.consecutive (fun x hx => by
    obtain ⟨l, _, _, hb⟩ := (h.recOK hx).built; exact ⟨_, hb⟩) h2
  refine ⟨⟨rfl, ?_⟩, k2⟩
  rw [h1] at k1
  exact k1

theorem PlanShape.listingNames (h : PlanShape rd pts D M rootW rootSize next recs n' rest) {x : Rec}
    (hx : x ∈ recs) {l : List FileEntry} (hl : rd x.path = .ok l) :
    (x.r.fileListing.map listKey).Perm (l.map (fun e => itemKey (itemOf M x.path e))) := by
  obtain ⟨l', k1, k2, k3⟩ := (h.recOK hx).built
  rw [hl] at k1; cases k1
  obtain ⟨m, m', hr⟩ := (h.recOK hx).repr
  have := (table_listing k3 hr).1
  rwa [List.map_map] at this

theorem PlanShape.paths_nodup (h : PlanShape rd pts D M rootW rootSize next recs n' rest) :
    ((placedAll rootSize recs).map Prod.fst).Nodup := by
  have hrec : (recs.map Rec.path).Nodup := by
    have h1 := h.tabs.sorted.nodup
    rw [h.split, List.map_append, List.map_map] at h1
    exact (List.nodup_append.1 h1).1
  have hnames : ∀ x ∈ recs, (x.r.fileListing.map Listing.name).Nodup := by
    intro x hx
    obtain ⟨l, k1, k2, k3⟩ := (h.recOK hx).built
    have h2 := h.listingNames hx k1
    have h3 := distinctNames_nodup (buildTable_distinct k3)
    have h4 := (h2.map Prod.fst).nodup_iff
    rw [List.map_map, List.map_map] at h4
    rw [List.map_map] at h3
    exact h4.2 h3
  simp only [placedAll, List.map_cons, List.nodup_cons]
  constructor
  · intro hm
    obtain ⟨y, hy, he⟩ := List.mem_map.1 hm
    obtain ⟨x, hx, hy⟩ := List.mem_flatMap.1 hy
    simp only [tagged, List.mem_map] at hy
    obtain ⟨l, _, rfl⟩ := hy
    simp at he
  · clear h
    induction recs with
    | nil => simp
    | cons x recs ih =>
      rw [List.map_cons, List.nodup_cons] at hrec
      rw [List.flatMap_cons, List.map_append, List.nodup_append]
      refine ⟨?_, ih hrec.2 (fun y hy => hnames y (by simp [hy])), ?_⟩
      · have := hnames x (by simp)
        simp only [tagged, List.map_map]
        rw [List.nodup_iff_pairwise_ne, List.pairwise_map] at this ⊢
        refine this.imp ?_
        intro a b hab he
        simp at he
        exact hab he
      · intro a ha b hb hab
        subst hab
        obtain ⟨y, hy, rfl⟩ := List.mem_map.1 ha
        obtain ⟨z, hz, hze⟩ := List.mem_map.1 hb
        obtain ⟨x', hx', hz⟩ := List.mem_flatMap.1 hz
        simp only [tagged, List.mem_map] at hy hz
        obtain ⟨l, _, rfl⟩ := hy
        obtain ⟨l', _, rfl⟩ := hz
        simp only at hze
        have := (List.append_inj' hze rfl).1
        exact hrec.1 (this ▸ List.mem_map_of_mem hx')

theorem roundUp_spec (n : Nat) : n ≤ roundUp n ∧ roundUp n < n + 2048 ∧ roundUp n % 2048 = 0 := by
  unfold roundUp; omega

theorem roundUp_roundUp (n : Nat) : roundUp (roundUp n) = roundUp n := by
  unfold roundUp; omega

theorem roundUp_le_sectors (n : Nat) : roundUp n ≤ 2048 * sectorsFor n := by
  unfold roundUp sectorsFor; omega

/-- Entries of a listing and the source. -/
theorem PlanShape.entry (h : PlanShape rd pts D M rootW rootSize next recs n' rest) {x : Rec}
    (hx : x ∈ recs) {l : Listing} (hl : l ∈ x.r.fileListing) :
    ∃ lst e, rd x.path = .ok lst ∧ e ∈ lst ∧ e.name = l.name ∧ e.isDir = l.isDir ∧
      (e.isDir = false → l.size = e.len ∧ e.len < 2 ^ 32) ∧
      (e.isDir = true → ∃ w sz, M.get (x.path ++ [l.name]) = some w ∧ w.dirtabSize = .ok sz ∧
        l.size = roundUp sz ∧ roundUp sz < 2 ^ 32) := by
  obtain ⟨lst, k1, k2, k3⟩ := (h.recOK hx).built
  have hp := h.listingNames hx k1
  have hm : listKey l ∈ lst.map (fun e => itemKey (itemOf M x.path e)) :=
    hp.mem_iff.1 (List.mem_map_of_mem hl)
  obtain ⟨e, he, hk⟩ := List.mem_map.1 hm
  simp only [itemKey, listKey, Prod.mk.injEq] at hk
  obtain ⟨q1, q2, q3⟩ := hk
  have q1' : e.name = l.name := q1
  have q3' : e.isDir = l.isDir := q3
  obtain ⟨w0, T, hI, _, _⟩ := buildTable_inv k3
  have hsmall := hI.small (itemOf M x.path e) (List.mem_map_of_mem he)
  refine ⟨lst, e, k1, he, q1', q3', ?_, ?_⟩
  · intro hd
    have hlen := (k2 e he).2 hd
    refine ⟨?_, hlen⟩
    rw [← q2]
    simp only [Item.storedSize, itemOf, hd]
    simp only [Bool.false_eq_true, if_false]
    rw [UInt32.toNat_ofNat_of_lt' hlen]
  · intro hd
    obtain ⟨w, hw⟩ := Option.isSome_iff_exists.1 ((k2 e he).1 hd)
    obtain ⟨sz, hs1, hs2⟩ := h.tabs.sized _ _ hw
    have hst : (itemOf M x.path e).storedSize = roundUp sz := by
      simp only [Item.storedSize, itemOf, hd, if_true, subSize, hw, hs1]
      rw [UInt32.toNat_ofNat_of_lt' hs2]
    refine ⟨w, sz, by rw [← q1']; exact hw, hs1, by rw [← q2, hst], by rw [← hst]; exact hsmall⟩

/-- Every record has a place, of its own size. -/
theorem PlanShape.recPlace (h : PlanShape rd pts D M rootW rootSize next recs n' rest) {x : Rec}
    (hx : x ∈ recs) : ∃ l sz, (x.path, l) ∈ placedAll rootSize recs ∧ l.isDir = true ∧
      l.sector = x.sector ∧ x.w.dirtabSize = .ok sz ∧ sz ≤ l.size ∧ l.size ≤ roundUp sz ∧
      l.size < 2 ^ 32 ∧ x.r.entryTable.length = roundUp sz := by
  have hs := h.chain.sound (T := [([], rootListing rootSize)]) (by
    intro p s hp
    simp only [PathMap.get] at hp
    split at hp
    · next hc =>
      rw [cmpPath_eq_iff] at hc
      cases hp
      exact ⟨_, by rw [hc]; exact List.mem_singleton.2 rfl, rfl, rfl⟩
    · cases hp) x hx
  obtain ⟨l, h1, h2, h3⟩ := hs
  have hlen : ∀ sz, x.w.dirtabSize = .ok sz → x.r.entryTable.length = roundUp sz := by
    intro sz hsz
    obtain ⟨lst, k1, k2, k3⟩ := (h.recOK hx).built
    obtain ⟨m, m', hr⟩ := (h.recOK hx).repr
    obtain ⟨sz', e1, e2, e3, _⟩ := C22_size_agrees k3 hr
    rw [hsz] at e1; cases e1; exact e3
  have hget := (h.recOK hx).get
  rw [List.cons_append, List.nil_append] at h1
  rcases List.mem_cons.1 h1 with h1' | h1'
  · have e1 : x.path = [] := congrArg Prod.fst h1'
    have e2 : l = rootListing rootSize := congrArg Prod.snd h1'
    rw [e1, h.rootGet] at hget
    have hw : rootW = x.w := Option.some.inj hget
    refine ⟨l, rootSize, h1, h2, h3, by rw [← hw]; exact h.size, ?_, ?_, ?_, hlen _ (by rw [← hw]; exact h.size)⟩
    · rw [e2]; exact Nat.le_refl _
    · rw [e2]; exact (roundUp_spec _).1
    · rw [e2]; exact h.rootLt
  · obtain ⟨y, hy, hm⟩ := List.mem_flatMap.1 h1'
    simp only [tagged, List.mem_map] at hm
    obtain ⟨l', hl', he⟩ := hm
    have e1 : y.path ++ [l'.name] = x.path := congrArg Prod.fst he
    have e2 : l' = l := congrArg Prod.snd he
    subst e2
    obtain ⟨lst, e, g1, g2, g3, g4, g5, g6⟩ := h.entry hy hl'
    obtain ⟨w, sz, k1, k2, k3, k4⟩ := g6 (by rw [g4]; exact h2)
    rw [e1, hget] at k1
    cases k1
    exact ⟨l', sz, h1, h2, h3, k2, by rw [k3]; exact (roundUp_spec _).1, by rw [k3]; exact Nat.le_refl _,
      by rw [k3]; exact k4, hlen _ k2⟩

/-- Every placed directory has a record, if all tables were written. -/
theorem PlanShape.recOf (h : PlanShape rd pts D M rootW rootSize next recs n' [])
    {p : Path} (hp : DirOf rd p) : ∃ x ∈ recs, x.path = p := by
  obtain ⟨w, hw⟩ := Option.isSome_iff_exists.1 (((tables_ok h.walked h.tables).2.2.2 p).2 hp)
  have hm := PathMap.mem_of_get hw
  rw [h.split, List.append_nil] at hm
  obtain ⟨x, hx, he⟩ := List.mem_map.1 hm
  exact ⟨x, hx, congrArg Prod.fst he⟩

end Xdvdfs
