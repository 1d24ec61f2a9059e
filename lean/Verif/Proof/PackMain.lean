import Verif.Proof.Extents
import Verif.Proof.FileDev
import Verif.Spec.Pack

/-!
# The image left by packing
-/

namespace Xdvdfs

open TabWriter Spec Props

/-- Extent of a placed entry, in bytes. -/
def InExtent (l : Listing) (w : Nat × Bytes) : Prop :=
  l.sector * 2048 ≤ w.1 ∧ w.1 + w.2.length ≤ (l.sector + sectorsFor l.size) * 2048

theorem consecutive_le : ∀ {ls : List Listing} {s e : Nat}, Consecutive s ls e →
    (∀ l ∈ ls, s ≤ l.sector ∧ l.sector + sectorsFor l.size ≤ e) ∧ s ≤ e := by
  intro ls
  induction ls with
  | nil => intro s e h; cases h; simp
  | cons l ls ih =>
    intro s e h
    obtain ⟨h1, h2⟩ := h
    obtain ⟨k1, k2⟩ := ih h2
    refine ⟨?_, by omega⟩
    intro m hm
    rcases List.mem_cons.1 hm with rfl | hm
    · omega
    · have := k1 m hm; omega

theorem consecutive_pairwise : ∀ {ls : List Listing} {s e : Nat}, Consecutive s ls e →
    ls.Pairwise (fun a b => a.sector + sectorsFor a.size ≤ b.sector) := by
  intro ls
  induction ls with
  | nil => intro s e _; exact .nil
  | cons l ls ih =>
    intro s e h
    obtain ⟨h1, h2⟩ := h
    refine List.pairwise_cons.2 ⟨?_, ih h2⟩
    intro m hm
    have := (consecutive_le h2).1 m hm
    omega

/-- Two different paths have disjoint extents. -/
theorem extents_disjoint {T : List (Path × Listing)} {s e : Nat}
    (hc : Consecutive s (T.map Prod.snd) e) (hn : (T.map Prod.fst).Nodup) {a b : Path × Listing}
    (ha : a ∈ T) (hb : b ∈ T) (hab : a.1 ≠ b.1) :
    a.2.sector + sectorsFor a.2.size ≤ b.2.sector ∨ b.2.sector + sectorsFor b.2.size ≤ a.2.sector := by
  have hp := consecutive_pairwise hc
  rw [List.pairwise_map] at hp
  clear hc hn
  induction T with
  | nil => simp at ha
  | cons x T ih =>
    have h' := List.pairwise_cons.1 hp
    rcases List.mem_cons.1 ha with h1 | h1 <;> rcases List.mem_cons.1 hb with h2 | h2
    · subst h1; subst h2; exact absurd rfl hab
    · subst h1; exact .inl (h'.1 b h2)
    · subst h2; exact .inr (h'.1 a h1)
    · exact ih h1 h2 h'.2

theorem nodup_fst_inj {T : List (Path × Listing)} (hn : (T.map Prod.fst).Nodup) {p : Path}
    {l m : Listing} (h1 : (p, l) ∈ T) (h2 : (p, m) ∈ T) : l = m := by
  rw [List.nodup_iff_pairwise_ne, List.pairwise_map] at hn
  induction T with
  | nil => simp at h1
  | cons x T ih =>
    have h' := List.pairwise_cons.1 hn
    rcases List.mem_cons.1 h1 with h1 | h1 <;> rcases List.mem_cons.1 h2 with h2 | h2
    · rw [← h1] at h2; exact (congrArg Prod.snd h2).symm
    · exact absurd (by rw [← h1]) (h'.1 _ h2)
    · exact absurd (by rw [← h2]) (h'.1 _ h1)
    · exact ih h'.2 h1 h2

/-- The writes for one directory, grouped by path. -/
def recGroups (fs : SourceFs) (x : Rec) : List (Path × List (Nat × Bytes)) :=
  (x.path, [(x.sector * sectorSize, x.r.entryTable)]) ::
    x.r.fileListing.filterMap (fun l => if l.isDir then none
      else some (x.path ++ [l.name], chunksAt (l.sector * sectorSize) (fs.copy (x.path ++ [l.name]) 0 l.size).1))

theorem opsEntry_writes (fs : SourceFs) (pts : Path → Str) (p : Path) (l : Listing) :
    (opsEntry pts p l).flatMap (opWrites fs) = if l.isDir then [] else
      chunksAt (l.sector * sectorSize) (fs.copy (p ++ [l.name]) 0 l.size).1 := by
  unfold opsEntry
  split <;> simp [opWrites, fromBase]

theorem opsRec_writes (fs : SourceFs) (pts : Path → Str) (x : Rec) :
    (opsRec pts x).flatMap (opWrites fs) = (recGroups fs x).flatMap Prod.snd := by
  unfold opsRec recGroups
  simp only [List.flatMap_cons, opWrites, List.nil_append]
  congr 1
  rw [List.flatMap_assoc]
  induction x.r.fileListing with
  | nil => rfl
  | cons l ls ih =>
    rw [List.flatMap_cons, opsEntry_writes, ih, List.filterMap_cons]
    cases l.isDir <;> simp

theorem reports_no_writes (fs : SourceFs) {ops : List Op} (h : ∀ o ∈ ops, o.IsReport) :
    ops.flatMap (opWrites fs) = [] := by
  rw [List.flatMap_eq_nil_iff]
  intro o ho
  have := h o ho
  cases o with
  | report => rfl
  | write => exact absurd this id
  | copy => exact absurd this id

theorem planOps_writes (fs : SourceFs) (pts : Path → Str) (D : List (Path × List FileEntry)) (recs : List Rec) :
    (planOps pts D recs).flatMap (opWrites fs) = (recs.flatMap (recGroups fs)).flatMap Prod.snd := by
  unfold planOps
  rw [List.flatMap_append, List.flatMap_append, reports_no_writes fs (ops := discovered D) (by
      intro o ho
      simp only [discovered, List.mem_map] at ho
      obtain ⟨_, _, rfl⟩ := ho; trivial)]
  simp only [List.flatMap_cons, List.flatMap_nil, opWrites, List.nil_append, List.append_nil]
  rw [List.flatMap_assoc, List.flatMap_assoc]
  apply congrArg (fun f => List.flatMap f recs)
  funext x
  exact opsRec_writes fs pts x

variable {rd : ReadDir} {pts : Path → Str} {D : List (Path × List FileEntry)}
  {M : PathMap TabWriter} {rootW : TabWriter} {rootSize next : Nat} {recs : List Rec} {n' : Nat}
  {rest : PathMap TabWriter}

theorem PlanShape.group_extent (h : PlanShape rd pts D M rootW rootSize next recs n' rest)
    {fs : SourceFs} (hb : Bounded fs) {g : Path × List (Nat × Bytes)}
    (hg : g ∈ recs.flatMap (recGroups fs)) :
    ∃ l, (g.1, l) ∈ placedAll rootSize recs ∧ (∀ w ∈ g.2, InExtent l w) ∧ g.2.Pairwise DisjW := by
  obtain ⟨x, hx, hg⟩ := List.mem_flatMap.1 hg
  unfold recGroups at hg
  rcases List.mem_cons.1 hg with rfl | hg
  · obtain ⟨l, sz, h1, h2, h3, h4, h5, h6, h7, h8⟩ := h.recPlace hx
    refine ⟨l, h1, ?_, by simp⟩
    intro w hw
    rw [List.mem_singleton] at hw
    subst hw
    simp only [InExtent, sectorSize, h8, h3]
    refine ⟨Nat.le_refl _, ?_⟩
    have : roundUp sz ≤ 2048 * sectorsFor l.size := by
      have := roundUp_le_sectors l.size
      have h9 : roundUp sz ≤ roundUp l.size := by unfold roundUp; omega
      omega
    rw [Nat.add_mul]; omega
  · obtain ⟨l, hl, he⟩ := List.mem_filterMap.1 hg
    split at he
    · cases he
    · next hd =>
      cases he
      refine ⟨l, ?_, ?_, chunksAt_disj⟩
      · simp only [placedAll, List.mem_cons]
        right
        exact List.mem_flatMap.2 ⟨x, hx, List.mem_map.2 ⟨l, hl, rfl⟩⟩
      · intro w hw
        obtain ⟨k1, k2⟩ := chunksAt_range hw
        refine ⟨k1, ?_⟩
        have := hb (x.path ++ [l.name]) l.size
        have h9 : l.size ≤ 2048 * sectorsFor l.size := by
          have := roundUp_le_sectors l.size; have := (roundUp_spec l.size).1; omega
        simp only [sectorSize] at k2
        rw [Nat.add_mul]; omega

theorem PlanShape.file_not_rec (h : PlanShape rd pts D M rootW rootSize next recs n' rest) {x y : Rec}
    (hx : x ∈ recs) (hy : y ∈ recs) {l : Listing} (hl : l ∈ y.r.fileListing) (hd : l.isDir = false) :
    x.path ≠ y.path ++ [l.name] := by
  intro he
  obtain ⟨m, sz, h1, h2, _⟩ := h.recPlace hx
  have h3 : (y.path ++ [l.name], l) ∈ placedAll rootSize recs := by
    simp only [placedAll, List.mem_cons]
    right
    exact List.mem_flatMap.2 ⟨y, hy, List.mem_map.2 ⟨l, hl, rfl⟩⟩
  rw [he] at h1
  have := nodup_fst_inj h.paths_nodup h1 h3
  rw [this, hd] at h2
  cases h2

theorem PlanShape.group_tags (h : PlanShape rd pts D M rootW rootSize next recs n' rest)
    (fs : SourceFs) : (recs.flatMap (recGroups fs)).Pairwise (fun a b => a.1 ≠ b.1) := by
  have hrec : recs.Pairwise (fun a b => a.path ≠ b.path) := by
    have h1 := h.tabs.sorted.nodup
    rw [h.split, List.map_append, List.map_map] at h1
    have := (List.nodup_append.1 h1).1
    rw [List.nodup_iff_pairwise_ne, List.pairwise_map] at this
    exact this
  have hin : ∀ x ∈ recs, x.r.fileListing.Pairwise (fun a b => a.name ≠ b.name) := by
    intro x hx
    obtain ⟨l, k1, k2, k3⟩ := (h.recOK hx).built
    have h2 := h.listingNames hx k1
    have h3 := distinctNames_nodup (buildTable_distinct k3)
    have h4 := (h2.map Prod.fst).nodup_iff
    rw [List.map_map, List.map_map] at h4
    rw [List.map_map] at h3
    have := h4.2 h3
    rw [List.nodup_iff_pairwise_ne, List.pairwise_map] at this
    exact this
  have hmem : ∀ {x : Rec} {g : Path × List (Nat × Bytes)}, g ∈ recGroups fs x →
      g.1 = x.path ∨ ∃ l ∈ x.r.fileListing, l.isDir = false ∧ g.1 = x.path ++ [l.name] := by
    intro x g hg
    unfold recGroups at hg
    rcases List.mem_cons.1 hg with rfl | hg
    · exact .inl rfl
    · obtain ⟨l, hl, he⟩ := List.mem_filterMap.1 hg
      split at he
      · cases he
      · next hd => cases he; exact .inr ⟨l, hl, by simpa using hd, rfl⟩
  rw [List.pairwise_flatMap]
  constructor
  · intro x hx
    unfold recGroups
    refine List.pairwise_cons.2 ⟨?_, ?_⟩
    · intro g hg
      obtain ⟨l, hl, he⟩ := List.mem_filterMap.1 hg
      split at he
      · cases he
      · cases he
        intro he
        have := congrArg List.length he
        simp at this
    · rw [List.pairwise_filterMap]
      refine (hin x hx).imp ?_
      intro a b hab g hg g' hg'
      split at hg
      · cases hg
      · split at hg'
        · cases hg'
        · cases hg; cases hg'
          intro he
          simp at he
          exact hab he
  · have hself : recs.Pairwise (fun a b => a ∈ recs ∧ b ∈ recs) := by
      rw [List.pairwise_iff_getElem]
      intro i j hi hj _
      exact ⟨List.getElem_mem _, List.getElem_mem _⟩
    refine (hrec.and hself).imp ?_
    rintro x y ⟨hxy, hx, hy⟩ g hg g' hg'
    rcases hmem hg with e1 | ⟨l, hl, hd, e1⟩ <;> rcases hmem hg' with e2 | ⟨l', hl', hd', e2⟩
    · rw [e1, e2]; exact hxy
    · rw [e1, e2]; exact h.file_not_rec hx hy hl' hd'
    · rw [e1, e2]; exact (h.file_not_rec hy hx hl hd).symm
    · rw [e1, e2]
      intro he
      exact hxy (List.append_inj' he rfl).1

/-- All writes of a plan are disjoint and lie between sector 33 and the end of the allocation. -/
theorem PlanShape.writes_disjoint (h : PlanShape rd pts D M rootW rootSize next recs n' rest)
    {fs : SourceFs} (hb : Bounded fs) :
    ((planOps pts D recs).flatMap (opWrites fs)).Pairwise DisjW ∧
    ∀ w ∈ (planOps pts D recs).flatMap (opWrites fs), 33 * 2048 ≤ w.1 ∧ w.1 + w.2.length ≤ n' * 2048 := by
  rw [planOps_writes]
  obtain ⟨hc, _⟩ := h.consecutive
  constructor
  · rw [List.pairwise_flatMap]
    constructor
    · intro g hg
      obtain ⟨l, _, _, h3⟩ := h.group_extent hb hg
      exact h3
    · have hself : (recs.flatMap (recGroups fs)).Pairwise
          (fun a b => a ∈ recs.flatMap (recGroups fs) ∧ b ∈ recs.flatMap (recGroups fs)) := by
        rw [List.pairwise_iff_getElem]
        intro i j hi hj _
        exact ⟨List.getElem_mem _, List.getElem_mem _⟩
      refine ((h.group_tags fs).and hself).imp ?_
      rintro g g' ⟨hne, hg, hg'⟩ w hw w' hw'
      obtain ⟨l, k1, k2, _⟩ := h.group_extent hb hg
      obtain ⟨l', k1', k2', _⟩ := h.group_extent hb hg'
      have hx := extents_disjoint hc h.paths_nodup k1 k1' hne
      have e1 := k2 w hw
      have e2 := k2' w' hw'
      unfold InExtent at e1 e2
      simp only at hx
      unfold DisjW
      rcases hx with hx | hx
      · left
        have := Nat.mul_le_mul_right 2048 hx
        omega
      · right
        have := Nat.mul_le_mul_right 2048 hx
        omega
  · intro w hw
    obtain ⟨g, hg, hw⟩ := List.mem_flatMap.1 hw
    obtain ⟨l, k1, k2, _⟩ := h.group_extent hb hg
    have e1 := k2 w hw
    have e2 := (consecutive_le hc).1 l (List.mem_map_of_mem (f := Prod.snd) k1)
    unfold InExtent at e1
    exact ⟨Nat.le_trans (Nat.mul_le_mul_right 2048 e2.1) e1.1, Nat.le_trans e1.2 (Nat.mul_le_mul_right 2048 e2.2)⟩

/-- The region designated by a listing entry. -/
def regionOf (l : Listing) : Region := ⟨UInt32.ofNat l.sector, UInt32.ofNat l.size⟩

/-- A device that stores the directories of the source tree. -/
structure DirImg (rd : ReadDir) (dev : Dev) (M : PathMap TabWriter) (Loc : Path → Listing → Prop) : Prop where
  dirs : ∀ p l, Loc p l → l.isDir = true → DirOf rd p ∧ ∃ lst w r n n', rd p = .ok lst ∧
    (∀ e ∈ lst, EntryOK M p e) ∧ buildTable (lst.map (itemOf M p)) = .ok w ∧
    w.diskRepr n = .ok (r, n') ∧ Placed dev (regionOf l) w r ∧ ∀ l' ∈ r.fileListing, Loc (p ++ [l'.name]) l'
  small : ∀ p l, Loc p l → l.sector < 2 ^ 32 ∧ l.size < 2 ^ 32

/-- A device that stores the source tree. -/
structure Img (rd : ReadDir) (content : Path → Bytes) (dev : Dev) (M : PathMap TabWriter)
    (Loc : Path → Listing → Prop) : Prop extends DirImg rd dev M Loc where
  files : ∀ p l, Loc p l → l.isDir = false →
    (content p).length = l.size ∧ HoldsAt dev (2048 * l.sector) (content p)

theorem PlanShape.dirOf (h : PlanShape rd pts D M rootW rootSize next recs n' rest) {x : Rec}
    (hx : x ∈ recs) : DirOf rd x.path := by
  rw [← (tables_ok h.walked h.tables).2.2.2 x.path, (h.recOK hx).get]; rfl

theorem PlanShape.dirImg {fs : SourceFs} {pts : Path → Str}
    (h : PlanShape fs.readDir pts D M rootW rootSize next recs n' [])
    {im : Bytes}
    (hat : ∀ w ∈ (planOps pts D recs).flatMap (opWrites fs), At im w.1 w.2) :
    DirImg fs.readDir (fileDev im) M (fun p l => (p, l) ∈ placedAll rootSize recs) := by
  obtain ⟨hc, hn⟩ := h.consecutive
  have hsmall : ∀ p l, (p, l) ∈ placedAll rootSize recs → l.sector < 2 ^ 32 := by
    intro p l hl
    have e2 := (consecutive_le hc).1 l (List.mem_map_of_mem (f := Prod.snd) hl)
    have : 1 ≤ sectorsFor l.size := by unfold sectorsFor; omega
    omega
  have hgroup : ∀ g ∈ recs.flatMap (recGroups fs), ∀ w ∈ g.2, At im w.1 w.2 := by
    intro g hg w hw
    apply hat
    rw [planOps_writes]
    exact List.mem_flatMap.2 ⟨g, hg, hw⟩
  refine ⟨?_, ?_⟩
  · intro p l hl hd
    have hdir : DirOf fs.readDir p := by
      unfold placedAll at hl
      rcases List.mem_cons.1 hl with he | hm
      · rw [show p = [] from congrArg Prod.fst he]; exact .root
      · obtain ⟨y, hy, hm⟩ := List.mem_flatMap.1 hm
        simp only [tagged, List.mem_map] at hm
        obtain ⟨l', hl', he⟩ := hm
        cases he
        obtain ⟨lst, e, g1, g2, g3, g4, _⟩ := h.entry hy hl'
        rw [← g3]
        exact .sub (h.dirOf hy) g1 g2 (by rw [g4]; exact hd)
    obtain ⟨x, hx, hxp⟩ := h.recOf hdir
    subst hxp
    obtain ⟨m, sz, h1, h2, h3, h4, h5, h6, h7, h8⟩ := h.recPlace hx
    have := nodup_fst_inj h.paths_nodup h1 hl
    subst this
    obtain ⟨lst, k1, k2, k3⟩ := (h.recOK hx).built
    obtain ⟨n1, n2, hr⟩ := (h.recOK hx).repr
    refine ⟨hdir, lst, x.w, x.r, n1, n2, k1, k2, k3, hr, ⟨?_, sz, h4, ?_, ?_⟩, ?_⟩
    · have := hgroup (x.path, [(x.sector * sectorSize, x.r.entryTable)])
        (List.mem_flatMap.2 ⟨x, hx, by simp [recGroups]⟩) _ (List.mem_singleton.2 rfl)
      have := this.holds
      simp only [regionOf]
      rw [UInt32.toNat_ofNat_of_lt' (hsmall _ _ hl), h3, Nat.mul_comm]
      exact this
    · simp only [regionOf]; rw [UInt32.toNat_ofNat_of_lt' h7]; exact h5
    · simp only [regionOf]; rw [UInt32.toNat_ofNat_of_lt' h7]; exact h6
    · intro l' hl'
      simp only [placedAll, List.mem_cons]
      right
      exact List.mem_flatMap.2 ⟨x, hx, List.mem_map.2 ⟨l', hl', rfl⟩⟩
  · intro p l hl
    refine ⟨hsmall p l hl, ?_⟩
    unfold placedAll at hl
    rcases List.mem_cons.1 hl with he | hm
    · rw [show l = rootListing rootSize from congrArg Prod.snd he]; exact h.rootLt
    · obtain ⟨y, hy, hm⟩ := List.mem_flatMap.1 hm
      simp only [tagged, List.mem_map] at hm
      obtain ⟨l', hl', he⟩ := hm
      cases he
      obtain ⟨lst, e, g1, g2, g3, g4, g5, g6⟩ := h.entry hy hl'
      cases hd : e.isDir with
      | true => obtain ⟨w, sz, _, _, q1, q2⟩ := g6 hd; rw [q1]; exact q2
      | false => obtain ⟨q1, q2⟩ := g5 hd; rw [q1]; exact q2

/-- The data of a file are where the plan puts them. -/
theorem PlanShape.fileAt {fs : SourceFs} {pts : Path → Str}
    (h : PlanShape fs.readDir pts D M rootW rootSize next recs n' []) {im : Bytes}
    (hat : ∀ w ∈ (planOps pts D recs).flatMap (opWrites fs), At im w.1 w.2) {p : Path} {l : Listing}
    (hl : (p, l) ∈ placedAll rootSize recs) (hd : l.isDir = false) :
    Op.copy p (l.sector * sectorSize) l.size ∈ planOps pts D recs ∧
    At im (l.sector * sectorSize) (fs.copy p 0 l.size).1.flatten ∧
    ∃ q e, p = q ++ [e.name] ∧ EntryIn fs.readDir q e ∧ e.isDir = false ∧ e.len = l.size := by
  unfold placedAll at hl
  rcases List.mem_cons.1 hl with he | hm
  · rw [show l = rootListing rootSize from congrArg Prod.snd he] at hd; cases hd
  · obtain ⟨y, hy, hm⟩ := List.mem_flatMap.1 hm
    simp only [tagged, List.mem_map] at hm
    obtain ⟨l', hl', he⟩ := hm
    cases he
    obtain ⟨lst, e, g1, g2, g3, g4, g5, _⟩ := h.entry hy hl'
    obtain ⟨s1, s2⟩ := g5 (by rw [g4]; exact hd)
    have hop : Op.copy (y.path ++ [l.name]) (l.sector * sectorSize) l.size ∈ planOps pts D recs := by
      simp only [planOps, List.mem_append]
      right; right
      refine List.mem_flatMap.2 ⟨y, hy, ?_⟩
      simp only [opsRec, List.mem_cons]
      right; right
      refine List.mem_flatMap.2 ⟨l, hl', ?_⟩
      simp [opsEntry, hd, fromBase]
    refine ⟨hop, ?_, y.path, e, by rw [g3], ⟨h.dirOf hy, lst, g1, g2⟩, by rw [g4]; exact hd, s1.symm⟩
    apply At.chunks
    intro w hw
    exact hat w (List.mem_flatMap.2 ⟨_, hop, by simpa [opWrites] using hw⟩)

theorem PlanShape.img {fs : SourceFs} {pts : Path → Str}
    (h : PlanShape fs.readDir pts D M rootW rootSize next recs n' [])
    {content : Path → Bytes} (hf : FaithfulTo fs content) {im : Bytes}
    (hok : ∀ o ∈ planOps pts D recs, OpOK fs o)
    (hat : ∀ w ∈ (planOps pts D recs).flatMap (opWrites fs), At im w.1 w.2) :
    Img fs.readDir content (fileDev im) M (fun p l => (p, l) ∈ placedAll rootSize recs) := by
  refine ⟨h.dirImg hat, ?_⟩
  intro p l hl hd
  obtain ⟨h1, h2, q, e, rfl, h3, h4, h5⟩ := h.fileAt hat hl hd
  obtain ⟨k, hk⟩ := hok _ h1
  rw [← h5] at hk h2
  obtain ⟨f1, f2⟩ := hf q e k h3 h4 hk
  rw [f1] at h2
  refine ⟨by rw [f2, h5], ?_⟩
  rw [Nat.mul_comm]
  exact h2.holds

end Xdvdfs
