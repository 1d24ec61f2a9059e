import Verif.Proof.Copier
import Verif.Props.Compress

/-!
# Compressing an image: the sector map of a source, and what its sectors must contain
-/

namespace Xdvdfs

open Spec Props

/-- The sector map of a source that packed for compression. -/
theorem linear_map {rd : ReadDir} {pts : Path → Str} {fuel : Nat} {m : SecMap} {log : List Progress}
    (h : createImage (linearEnv rd pts) fuel ⟨[], []⟩ = (.ok (), ⟨m, log⟩)) :
    ∃ D M rootW rootSize next recs n', PlanShape rd pts D M rootW rootSize next recs n' [] ∧ m.Sorted ∧
      (∀ o ∈ planOps pts D recs ++ [descOp rootSize], ∀ k b, OpBlock o k b → m.get k = some b) ∧
      (∀ k b, m.get k = some b → b = .raw (List.replicate 2048 0) ∨
        ∃ o ∈ planOps pts D recs ++ [descOp rootSize], OpBlock o k b) := by
  have hres : (createP rd pts fuel).res = .ok () := by
    have hc := congrFun (createImage_eq (linearEnv rd pts) fuel) ⟨[], []⟩
    rw [h] at hc
    change _ = ((createP rd pts fuel).run (linearEnv rd pts) >>= fun _ => padImage (linearEnv rd pts) >>= fun _ =>
        PM.report .finishedPacking) ⟨[], []⟩ at hc
    simp only [PM.bind_def, Pl.run] at hc
    rcases hr : runOps (linearEnv rd pts) (createP rd pts fuel).ops ⟨[], []⟩ with ⟨r, s1⟩
    rw [hr] at hc
    cases r with
    | ok u =>
      simp only [PM.lift] at hc
      cases hr : (createP rd pts fuel).res with
      | ok u => rfl
      | err e => rw [hr] at hc; cases hc
      | panic => rw [hr] at hc; cases hc
      | hang => rw [hr] at hc; cases hc
    | err e => cases hc
    | panic => cases hc
    | hang => cases hc
  rcases createP_inv rd pts fuel with
    ⟨_, k2⟩ | ⟨D, M, rootW, rootSize, next, recs, n', rest, hS, ⟨k1, rfl, k3, k4⟩ | ⟨k1, k2⟩⟩
  · exact absurd hres k2
  · obtain ⟨m1, e1, e2⟩ := runOps_lin rd pts (ops := planOps pts D recs ++ [descOp rootSize])
      (s := ⟨[], []⟩) LinOK.nil (by
        intro o ho
        rcases List.mem_append.1 ho with ho | ho
        · exact planOps_aligned _ _ _ o ho
        · rw [List.mem_singleton] at ho; subst ho; exact descOp_aligned _) (by simpa using hS.ops_disjoint)
    rw [List.nil_append] at e2
    obtain ⟨m', p1, p2, p3, p4, p5⟩ := padImage_lin rd pts
      ((planOps pts D recs ++ [descOp rootSize]).flatMap opReports) e2
    have hc := congrFun (createImage_eq (linearEnv rd pts) fuel) ⟨[], []⟩
    rw [h] at hc
    change _ = ((createP rd pts fuel).run (linearEnv rd pts) >>= fun _ => padImage (linearEnv rd pts) >>= fun _ =>
        PM.report .finishedPacking) ⟨[], []⟩ at hc
    simp only [PM.bind_def, Pl.run, k4, e1, k1, PM.lift, List.nil_append, p1, PM.report, Prod.mk.injEq,
      PackState.mk.injEq, true_and] at hc
    obtain ⟨rfl, _⟩ := hc
    refine ⟨D, M, rootW, rootSize, next, recs, n', hS, p3, ?_, ?_⟩
    · intro o ho k b hb
      exact (SecMap.get_iff p3 k b).2 (p4 _ ((e2.mem k b).2 ⟨o, ho, hb⟩))
    · intro k b hb
      rcases p5 k b ((SecMap.get_iff p3 k b).1 hb) with hb | ⟨hb, _⟩
      · exact .inr ((e2.mem k b).1 hb)
      · exact .inl hb
  · exact absurd hres k1

/-- The file sectors of the map belong to files of the source. -/
theorem linear_files {rd : ReadDir} {pts : Path → Str} {fuel : Nat} {m : SecMap} {log : List Progress}
    (h : createImage (linearEnv rd pts) fuel ⟨[], []⟩ = (.ok (), ⟨m, log⟩)) {k : Nat} {p : Path} {i : Nat}
    (hk : m.get k = some (.file p i)) :
    ∃ q e, EntryIn rd q e ∧ e.isDir = false ∧ p = q ++ [e.name] ∧ 2048 * i < e.len := by
  obtain ⟨D, M, rootW, rootSize, next, recs, n', hS, _, _, h2⟩ := linear_map h
  rcases h2 k _ hk with he | ⟨o, ho, hb⟩
  · cases he
  · cases o with
    | report => exact absurd hb id
    | write => obtain ⟨_, _, _, he⟩ := hb; cases he
    | copy q out n =>
      obtain ⟨j, h3, _, he⟩ := hb
      cases he
      have ho' : Op.copy p out n ∈ planOps pts D recs := by
        rcases List.mem_append.1 ho with ho | ho
        · exact ho
        · rw [List.mem_singleton] at ho; cases ho
      obtain ⟨q, e, g1, g2, rfl, rfl⟩ := hS.copy_entry ho'
      exact ⟨q, e, g1, g2, rfl, h3⟩

/-- Every sector of a non-empty file is in the map. -/
theorem linear_file_sector {rd : ReadDir} {pts : Path → Str} {fuel : Nat} {m : SecMap} {log : List Progress}
    (h : createImage (linearEnv rd pts) fuel ⟨[], []⟩ = (.ok (), ⟨m, log⟩)) {q : Path} {e : FileEntry}
    (he : EntryIn rd q e) (hd : e.isDir = false) {i : Nat} (hi : 2048 * i < e.len) :
    ∃ k, m.get k = some (.file (q ++ [e.name]) i) := by
  obtain ⟨D, M, rootW, rootSize, next, recs, n', hS, _, h1, _⟩ := linear_map h
  obtain ⟨out, ho⟩ := hS.entry_copy he hd
  exact ⟨_, h1 _ (List.mem_append_left _ ho) _ _ ⟨i, hi, rfl, rfl⟩⟩

/-- Data of which every sector is shown is shown. -/
theorem at_of_sectors {img d : Bytes} {off : Nat} (hal : off % 2048 = 0)
    (h : ∀ i j, j < 2048 → 2048 * i + j < d.length →
      img[2048 * (off / 2048 + i) + j]? = d[2048 * i + j]?) : At img off d := by
  intro x hx
  have := h (x / 2048) (x % 2048) (Nat.mod_lt _ (by decide)) (by omega)
  rw [show 2048 * (off / 2048 + x / 2048) + x % 2048 = off + x by omega,
    show 2048 * (x / 2048) + x % 2048 = x by omega] at this
  exact this

/-- An image that shows the raw sectors of the map, and the files as far as they go, holds the
tree. -/
theorem linear_holds {rd : ReadDir} {pts : Path → Str} {fuel : Nat} {m : SecMap} {log : List Progress}
    (h : createImage (linearEnv rd pts) fuel ⟨[], []⟩ = (.ok (), ⟨m, log⟩)) {content : Path → Bytes}
    (hlen : ∀ p e, EntryIn rd p e → e.isDir = false → (content (p ++ [e.name])).length = e.len) {img : Bytes}
    (hraw : ∀ k d, m.get k = some (.raw d) → ∀ j, j < 2048 → img[2048 * k + j]? = d[j]?)
    (hfile : ∀ k p i, m.get k = some (.file p i) → ∀ j, j < 2048 → 2048 * i + j < (content p).length →
      img[2048 * k + j]? = (content p)[2048 * i + j]?) :
    HoldsTree (fileDev img) rd content := by
  obtain ⟨D, M, rootW, rootSize, next, recs, n', hS, _, h1, _⟩ := linear_map h
  let fs : SourceFs := ⟨rd, pts, fun p _ n => ([content p], .ok n)⟩
  have hwrite : ∀ off d, Op.write off d ∈ planOps pts D recs ++ [descOp rootSize] → off % 2048 = 0 →
      At img off d := by
    intro off d ho hal
    apply at_of_sectors hal
    intro i j hj hd
    have := h1 _ ho _ _ ⟨i, by omega, rfl, rfl⟩
    rw [hraw _ _ this j hj, padSector, List.getElem?_append_left (by simp [slice]; omega)]
    simp only [slice, List.getElem?_take, List.getElem?_drop, hj, if_true]
  refine holdsTree_of_at (fs := fs) hS (content := content) ?_ ?_ ?_
  · intro p e k he hd _
    exact ⟨by simp [fs], hlen p e he hd⟩
  · intro o ho
    cases o <;> simp [OpOK, fs]
  · intro w hw
    rcases List.mem_append.1 hw with hw | hw
    · obtain ⟨o, ho, hw⟩ := List.mem_flatMap.1 hw
      have hal := planOps_aligned _ _ _ o ho
      cases o with
      | report => simp [opWrites] at hw
      | write off d =>
        simp only [opWrites, List.mem_singleton] at hw
        subst hw
        exact hwrite off d (List.mem_append_left _ ho) hal
      | copy p out n =>
        simp only [opWrites, fs, chunksAt, List.mem_singleton] at hw
        subst hw
        obtain ⟨q, e, g1, g2, rfl, rfl⟩ := hS.copy_entry ho
        have hl := hlen q e g1 g2
        apply at_of_sectors hal
        intro i j hj hd
        exact hfile _ _ i (h1 _ (List.mem_append_left _ ho) _ _ ⟨i, by simp only at hd; omega, rfl, rfl⟩) j hj hd
    · rw [List.mem_singleton] at hw
      subst hw
      exact hwrite (32 * 2048) _ (List.mem_append_right _ (List.mem_singleton.2 rfl)) rfl

/-! ## Images -/

theorem repackLinear_cases {copier : Copier} {wf fuel : Nat} {fs fs' : ImgFs} {m : SecMap} {log : List Progress}
    (hc : fs.cache = Trie.empty) (h : repackLinear copier wf fuel fs ⟨[], []⟩ = (.ok fs', ⟨m, log⟩)) :
    After wf fs fs' ∧
    (∀ p, DirOf (imgReadDir fs.dev wf fs.vol.root) p → Known fs.dev wf fs.vol.root fs'.cache p) ∧
    createImage (linearEnv (imgReadDir fs.dev wf fs.vol.root) pathAsString) fuel ⟨[], []⟩ =
      (.ok (), ⟨m, log⟩) := by
  have hinv : CacheInv fs.dev wf fs.vol.root fs.cache := by rw [hc]; exact cacheInv_empty _ _ _
  obtain ⟨h1, h2⟩ := imgTreeLoop_spec fuel fs [[]] [] (⟨[], []⟩ : PackState SecMap) hinv (by simp)
  simp only [repackLinear, PM.bind_def] at h
  rcases hx : imgTreeLoop wf fuel fs [[]] [] (⟨[], []⟩ : PackState SecMap) with ⟨r, s1⟩
  rw [hx] at h h1 h2
  cases r with
  | ok x =>
    obtain ⟨D, fs2⟩ := x
    simp only at h
    obtain ⟨j1, j2, j3⟩ := h2 D fs2 rfl
    have hdt := j1 (linearEnv (imgReadDir fs.dev wf fs.vol.root) pathAsString) rfl
    rcases hcr : createFrom (linearEnv (fs2.source (fun _ => .err .other) copier).readDir
      (fs2.source (fun _ => .err .other) copier).pathToString) D s1 with ⟨r, s2⟩
    rw [hcr] at h
    cases r with
    | ok u =>
      simp only [PM.pure_def, Prod.mk.injEq, Res.ok.injEq] at h
      obtain ⟨rfl, rfl⟩ := h
      refine ⟨j2, ?_, ?_⟩
      · intro p hp
        obtain ⟨k1, _, _⟩ := dirTree_ok hdt
        obtain ⟨y, hy, rfl⟩ := List.mem_map.1 ((k1.mem_iff p).2 hp)
        exact j3 (by simp) y hy
      · simp only [createImage, dirTree, PM.bind_def, hdt]
        rw [show (Res.ok (), (⟨m, log⟩ : PackState SecMap)) = (Res.ok u, ⟨m, log⟩) from rfl, ← hcr]
        exact congrFun (createFrom_congr (linearEnv (fs2.source (fun _ => .err .other) copier).readDir
          pathAsString) (imgReadDir fs.dev wf fs.vol.root) D) s1
    | err e => cases h
    | panic => cases h
    | hang => cases h
  | err e => cases h
  | panic => cases h
  | hang => cases h

theorem defaultCopier_small {dev : Dev} {off n : Nat} (h0 : 0 < n) (h1 : n ≤ 1024 * 1024) {b : Bytes}
    (h : dev.read off n = .ok b) : defaultCopier dev off n = ([b], .ok n) := by
  unfold defaultCopier
  obtain ⟨k, rfl⟩ : ∃ k, n = k + 1 := ⟨n - 1, by omega⟩
  unfold chunkLoop
  rw [if_pos h0]
  simp only [Nat.add_zero, Nat.sub_zero, Nat.zero_add, Nat.min_eq_right h1, h]
  unfold chunkLoop
  rw [if_neg (by omega), if_pos rfl]

/-- The entry behind a file sector. -/
theorem sector_dirent {wf : Nat} {fs fs' : ImgFs} (ha : After wf fs fs')
    (hk : ∀ p, DirOf (imgReadDir fs.dev wf fs.vol.root) p → Known fs.dev wf fs.vol.root fs'.cache p)
    (hd : AllDistinct (imgReadDir fs.dev wf fs.vol.root)) {q : Path} {e : FileEntry}
    (he : EntryIn (imgReadDir fs.dev wf fs.vol.root) q e) :
    ∃ ds d, imgDirents fs.dev wf fs.vol.root q = .ok ds ∧ d ∈ ds ∧ e = fileEntryOf d ∧
      fs'.cache.get (q ++ [e.name]) = .ok (some d) := by
  obtain ⟨hp, l, hl, hel⟩ := he
  obtain ⟨ds, k1, k2⟩ := Res.bind_eq_ok.1 hl
  simp only [Res.pure_eq, Res.ok.injEq] at k2
  subst k2
  obtain ⟨d, hdm, rfl⟩ := List.mem_map.1 hel
  exact ⟨ds, d, k1, hdm, rfl, copy_known ha.inv.1 (hk q hp) (dirOf_latin1 hk hp) k1
    (firstNamed_distinct (hd q _ hp hl) hdm)⟩

/-- The entry behind a file sector is the listed one. -/
theorem sector_listed {wf : Nat} {fs fs' : ImgFs} (ha : After wf fs fs')
    (hk : ∀ p, DirOf (imgReadDir fs.dev wf fs.vol.root) p → Known fs.dev wf fs.vol.root fs'.cache p)
    (hd : AllDistinct (imgReadDir fs.dev wf fs.vol.root)) {q : Path} (hp : DirOf (imgReadDir fs.dev wf fs.vol.root) q)
    {ds : List DirEnt} (hds : imgDirents fs.dev wf fs.vol.root q = .ok ds) {d : DirEnt} (hdm : d ∈ ds) :
    fs'.cache.get (q ++ [(fileEntryOf d).name]) = .ok (some d) :=
  copy_known ha.inv.1 (hk q hp) (dirOf_latin1 hk hp) hds
    (firstNamed_distinct (hd q (ds.map fileEntryOf) hp (by unfold imgReadDir; rw [hds]; rfl)) hdm)

/-- A sector of a file of at least one sector. -/
theorem imgBufCopy_large {fs : ImgFs} {p : Path} {d : DirEnt} {i : Nat} {c : Bytes}
    (hp : PartsReadable fs.dev)
    (hw : ∃ b, fs.dev.read (2048 * d.node.dirent.data.sector.toNat) (roundUp d.node.dirent.data.size.toNat) = .ok b)
    (hg : fs.cache.get p = .ok (some d)) (hc : readDataAll fs.dev d.node.dirent = .ok c) (hl : 2048 ≤ d.node.dirent.data.size.toNat)
    (hi : 2048 * i < d.node.dirent.data.size.toNat) :
    ∃ sec, imgBufCopy (defaultCopier fs.dev) fs p (List.replicate 2048 0) (2048 * i) 0 2048 =
      .ok (2048, sec) ∧ sec.length = 2048 ∧
      ∀ j, j < 2048 → 2048 * i + j < c.length → sec[j]? = c[2048 * i + j]? := by
  unfold readDataAll at hc
  have hz : ¬ d.node.dirent.data.size = 0 := fun hx => by rw [hx] at hl; simp at hl
  rw [if_neg hz] at hc
  obtain ⟨off, ho1, ho2⟩ := Res.bind_eq_ok.1 hc
  have hoff : off = 2048 * d.node.dirent.data.sector.toNat := by
    unfold Region.offset at ho1
    rw [if_neg (by omega)] at ho1
    cases ho1; rfl
  rw [← hoff] at hw
  obtain ⟨b', hb'⟩ := hw
  have hbl := fs.dev.read_len _ _ _ hb'
  have hcl := fs.dev.read_len _ _ _ ho2
  have hru := roundUp_spec d.node.dirent.data.size.toNat
  have hin : 2048 * i + 2048 ≤ b'.length := by rw [hbl]; omega
  have hread : fs.dev.read (off + 2048 * i) 2048 = .ok (slice b' (2048 * i) 2048) := hp _ _ _ hb' _ _ hin
  have hcp : fs.copy (defaultCopier fs.dev) p (2048 * i) 2048 =
      ([slice b' (2048 * i) 2048], .ok 2048) := by
    unfold ImgFs.copy
    simp only [hg, Nat.min_eq_left hl]
    rw [if_neg (by decide)]
    simp only [Region.offset]
    rw [if_neg (by omega)]
    simp only [sectorSize]
    rw [← hoff]
    exact defaultCopier_small (by decide) (by decide) hread
  have hsl : (slice b' (2048 * i) 2048).length = 2048 := slice_length _ _ _ hin
  refine ⟨slice b' (2048 * i) 2048, ?_, hsl, ?_⟩
  · unfold imgBufCopy
    simp only [hcp, memWriteChunks, memWrite, List.length_replicate, hsl]
    rw [if_neg (by decide)]
    simp only [Res.ok_bind, Res.pure_eq, List.take_zero, List.nil_append, Nat.zero_add]
    rw [List.drop_eq_nil_of_le (by rw [List.length_replicate]; exact Nat.le_refl _), List.append_nil]
  · intro j hj hjc
    have hpre := hp _ _ _ hb' 0 d.node.dirent.data.size.toNat (by omega)
    rw [Nat.add_zero, ho2] at hpre
    simp only [Res.ok.injEq] at hpre
    rw [hpre]
    simp only [slice, List.getElem?_take, List.getElem?_drop, hj, if_true, Nat.zero_add]
    rw [if_pos (by omega)]

/-- The sector of a file smaller than a sector. -/
theorem imgBufCopy_small {fs : ImgFs} {p : Path} {d : DirEnt} {c : Bytes}
    (hg : fs.cache.get p = .ok (some d))
    (hc : readDataAll fs.dev d.node.dirent = .ok c) (h0 : 0 < d.node.dirent.data.size.toNat)
    (hl : d.node.dirent.data.size.toNat < 2048) :
    ∃ sec, imgBufCopy (defaultCopier fs.dev) fs p (List.replicate 2048 0) 0 0 2048 =
      .ok (d.node.dirent.data.size.toNat, sec) := by
  unfold readDataAll at hc
  have hz : ¬ d.node.dirent.data.size = 0 := fun hx => by rw [hx] at h0; simp at h0
  rw [if_neg hz] at hc
  obtain ⟨off, ho1, ho2⟩ := Res.bind_eq_ok.1 hc
  have hcl := fs.dev.read_len _ _ _ ho2
  have hcp : fs.copy (defaultCopier fs.dev) p 0 2048 = ([c], .ok d.node.dirent.data.size.toNat) := by
    unfold ImgFs.copy
    simp only [hg, Nat.min_eq_right (Nat.le_of_lt hl)]
    rw [if_neg (by omega), ho1]
    exact defaultCopier_small h0 (by omega) ho2
  unfold imgBufCopy
  simp only [hcp, memWriteChunks, memWrite, List.length_replicate, hcl]
  rw [if_neg (by omega)]
  exact ⟨_, rfl⟩

/-- Repacking for compression succeeds on an image with a representable tree. -/
theorem repackLinear_works {copier : Copier} {wf fuel : Nat} {fs : ImgFs} (hc : fs.cache = Trie.empty)
    {tree : List (Path × List FileEntry)} (hL : Listable (imgReadDir fs.dev wf fs.vol.root))
    (ht : TreeOf (imgReadDir fs.dev wf fs.vol.root) tree) (hF : Fits tree)
    (hS : ∀ x ∈ tree, StorableListing x.2) (hK : ∀ x ∈ tree, TableWithin256K x.2)
    (hlat : ∀ x ∈ tree, ∀ e ∈ x.2, Latin1 e.name) (hf : tree.length ≤ fuel) :
    ∃ fs' m log, repackLinear copier wf fuel fs ⟨[], []⟩ = (.ok fs', ⟨m, log⟩) := by
  have hP := plan_succeeds pathAsString hL ht hF hS hK hf
  have hcr := C39_compress_succeeds pathAsString hL ht hF hS hK hf
  have hinv : CacheInv fs.dev wf fs.vol.root fs.cache := by rw [hc]; exact cacheInv_empty _ _ _
  obtain ⟨h1, h2⟩ := imgTreeLoop_spec fuel fs [[]] [] (⟨[], []⟩ : PackState SecMap) hinv (by simp)
  obtain ⟨⟨D, fs2⟩, hx⟩ : ∃ x, (imgTreeLoop wf fuel fs [[]] [] (⟨[], []⟩ : PackState SecMap)).1 = .ok x := by
    rcases createP_inv (imgReadDir fs.dev wf fs.vol.root) pathAsString fuel with
      ⟨_, k2⟩ | ⟨D, M, rootW, rootSize, next, recs, n', rest, hSh, ⟨k1, rfl, k3, k4⟩ | ⟨k1, k2⟩⟩
    · exact absurd hP k2
    · exact imgTreeLoop_total (σ := SecMap) hSh.walked fuel fs [] _ rfl hinv (by simp) (by
        intro x hx
        exact hlat x ((ht.2 x.1 x.2).2 ⟨(hSh.walked.mem_iff x.1).1 (List.mem_map_of_mem hx),
          hSh.walked.readDir hx⟩)) k3
    · exact absurd hP k1
  obtain ⟨j1, j2, j3⟩ := h2 D fs2 hx
  have hdt := j1 (linearEnv (imgReadDir fs.dev wf fs.vol.root) pathAsString) rfl
  rcases hs : imgTreeLoop wf fuel fs [[]] [] (⟨[], []⟩ : PackState SecMap) with ⟨r, s1⟩
  rw [hs] at hdt hx
  simp only at hx hdt
  subst hx
  simp only [createImage, dirTree, PM.bind_def, hdt] at hcr
  have hg : createFrom (linearEnv (fs2.source (fun _ => .err .other) copier).readDir
      (fs2.source (fun _ => .err .other) copier).pathToString) D s1 =
      createFrom (linearEnv (imgReadDir fs.dev wf fs.vol.root) pathAsString) D s1 :=
    (congrFun (createFrom_congr (linearEnv (fs2.source (fun _ => .err .other) copier).readDir
          pathAsString) (imgReadDir fs.dev wf fs.vol.root) D) s1).symm
  rcases hcf : createFrom (linearEnv (imgReadDir fs.dev wf fs.vol.root) pathAsString) D s1 with ⟨r, m, log⟩
  rw [hcf] at hcr hg
  simp only at hcr
  subst hcr
  refine ⟨fs2, m, log, ?_⟩
  simp only [repackLinear, PM.bind_def, hs, hg, PM.pure_def]

/-- Sectors put together. -/
theorem viewBytes_sectors {copy : BufCopier} {m : SecMap} : ∀ (n : Nat),
    (∀ k, k < n → ∃ sec, readSector copy m k 2048 = .ok sec ∧ sec.length = 2048) →
    ∃ img, viewBytes copy m n = .ok img ∧ img.length = 2048 * n ∧
      ∀ k sec, k < n → readSector copy m k 2048 = .ok sec → ∀ j, j < 2048 → img[2048 * k + j]? = sec[j]? := by
  intro n
  induction n with
  | zero => intro _; exact ⟨[], rfl, rfl, fun k _ h => by omega⟩
  | succ n ih =>
    intro h
    obtain ⟨img, h1, h2, h3⟩ := ih (fun k hk => h k (by omega))
    obtain ⟨sec, g1, g2⟩ := h n (by omega)
    refine ⟨img ++ sec, by simp only [viewBytes, h1, g1, Res.ok_bind], by simp [h2, g2]; omega, ?_⟩
    intro k sec' hk hs j hj
    by_cases hlt : k < n
    · rw [List.getElem?_append_left (by omega)]
      exact h3 k sec' hlt hs j hj
    · have : k = n := by omega
      subst this
      rw [g1] at hs; cases hs
      rw [List.getElem?_append_right (by omega), h2]
      congr 1; omega

theorem view_reads {copy : BufCopier} {m : SecMap} : ∀ (n : Nat) {img : Bytes}, viewBytes copy m n = .ok img →
    ∀ k, k < n → ∃ x, readSector copy m k 2048 = .ok x := by
  intro n
  induction n with
  | zero => intro _ _ k hk; omega
  | succ n ih =>
    intro img hv k hk
    unfold viewBytes at hv
    obtain ⟨f, h1, h2⟩ := Res.bind_eq_ok.1 hv
    obtain ⟨x, h3, _⟩ := Res.bind_eq_ok.1 h2
    by_cases hkn : k = n
    · subst hkn; exact ⟨x, h3⟩
    · exact ih h1 k (by omega)

/-- On a device that ends with a complete sector the files of an image have complete sectors. -/
theorem whole_complete {dev : Dev} {wf : Nat} {root : Region} {content : Path → Bytes} (hw : WholeSectors dev)
    (hcont : ImgContent dev wf root content) : CompleteSectors dev wf root := by
  intro p ds d hp hds hd hdir h0
  have hc := hcont p ds d hp hds hd hdir
  unfold readDataAll at hc
  rw [if_neg (fun hx => by rw [hx] at h0; simp at h0)] at hc
  obtain ⟨off, ho1, ho2⟩ := Res.bind_eq_ok.1 hc
  unfold Region.offset at ho1
  rw [if_neg (by omega)] at ho1
  cases ho1
  exact hw _ _ _ (by omega) ho2

/-- A copy that succeeds has read its range, if it is short. -/
theorem defaultCopier_reads {dev : Dev} {off n : Nat} (h0 : 0 < n) (h1 : n ≤ 1024 * 1024) {k : Nat}
    (h : (defaultCopier dev off n).2 = .ok k) : ∃ b, dev.read off n = .ok b := by
  unfold defaultCopier at h
  obtain ⟨j, rfl⟩ : ∃ j, n = j + 1 := ⟨n - 1, by omega⟩
  unfold chunkLoop at h
  rw [if_pos h0] at h
  simp only [Nat.add_zero, Nat.sub_zero, Nat.zero_add, Nat.min_eq_right h1] at h
  cases hr : dev.read off (j + 1) with
  | ok b => exact ⟨b, rfl⟩
  | err e => rw [hr] at h; cases h
  | panic => rw [hr] at h; cases h
  | hang => rw [hr] at h; cases h

/-- The last sector of a file of at least one sector can be copied only if it is on the device to its end. -/
theorem imgBufCopy_cut {fs : ImgFs} {p : Path} {d : DirEnt} {c : Bytes} (hp : PartsReadable fs.dev)
    (hj : JoinsReads fs.dev) (hg : fs.cache.get p = .ok (some d)) (hc : readDataAll fs.dev d.node.dirent = .ok c)
    (hl : 2048 ≤ d.node.dirent.data.size.toNat) {r : Nat × Bytes}
    (h : imgBufCopy (defaultCopier fs.dev) fs p (List.replicate 2048 0)
      (2048 * ((d.node.dirent.data.size.toNat - 1) / 2048)) 0 2048 = .ok r) :
    ∃ b, fs.dev.read (2048 * d.node.dirent.data.sector.toNat) (roundUp d.node.dirent.data.size.toNat) = .ok b := by
  unfold readDataAll at hc
  rw [if_neg (fun hx => by rw [hx] at hl; simp at hl)] at hc
  obtain ⟨off, ho1, ho2⟩ := Res.bind_eq_ok.1 hc
  unfold Region.offset at ho1
  rw [if_neg (by omega)] at ho1
  cases ho1
  simp only [sectorSize, Nat.add_zero] at ho2
  have hcl := fs.dev.read_len _ _ _ ho2
  have hru := roundUp_spec d.node.dirent.data.size.toNat
  obtain ⟨dest, _, h⟩ := Res.bind_eq_ok.1 h
  obtain ⟨n, h2, _⟩ := Res.bind_eq_ok.1 h
  unfold ImgFs.copy at h2
  simp only [hg, Nat.min_eq_left hl] at h2
  rw [if_neg (by decide)] at h2
  simp only [Region.offset] at h2
  rw [if_neg (by omega)] at h2
  simp only [sectorSize] at h2
  obtain ⟨b2, hb2⟩ := defaultCopier_reads (by decide) (by decide) h2
  have hb1 := hp _ _ _ ho2 0 (2048 * ((d.node.dirent.data.size.toNat - 1) / 2048)) (by omega)
  rw [Nat.add_zero] at hb1
  obtain ⟨b3, hb3⟩ := hj _ _ _ _ _ hb1 hb2
  refine ⟨b3, ?_⟩
  rw [show roundUp d.node.dirent.data.size.toNat = 2048 * ((d.node.dirent.data.size.toNat - 1) / 2048) + 2048 from by omega]
  exact hb3

theorem fileDev_joins (img : Bytes) : JoinsReads (fileDev img) := by
  intro off n m a b ha hb
  rw [fileDev_read, fileRead] at ha hb ⊢
  split at ha
  · next h0 => subst h0; rw [Nat.zero_add]; exact ⟨b, by simpa [fileRead] using hb⟩
  · next h0 =>
    split at ha
    · split at hb
      · next h1 => subst h1; rw [if_neg (by omega), if_pos (by omega)]; exact ⟨_, rfl⟩
      · split at hb
        · rw [if_neg (by omega), if_pos (by omega)]; exact ⟨_, rfl⟩
        · cases hb
    · cases ha

theorem offsetDev_joins {dev : Dev} (hj : JoinsReads dev) (base : Nat) : JoinsReads (offsetDev dev base) := by
  intro off n m a b ha hb
  simp only [offsetDev, offsetRead] at ha hb ⊢
  split at ha
  · next h1 =>
    rw [if_pos h1]
    split at hb
    · exact hj _ _ _ _ _ ha (by rw [show off + base + n = off + n + base from by omega]; exact hb)
    · cases hb
  · cases ha

theorem fileDev_whole {img : Bytes} (h : img.length % 2048 = 0) : WholeSectors (fileDev img) := by
  intro off n b ho hr
  rw [fileDev_read, fileRead] at hr ⊢
  have := roundUp_spec n
  by_cases h0 : n = 0
  · subst h0; exact ⟨[], by rw [if_pos (by decide)]⟩
  · rw [if_neg h0] at hr
    split at hr
    · rw [if_neg (by omega), if_pos (by omega)]
      exact ⟨_, rfl⟩
    · cases hr

end Xdvdfs
