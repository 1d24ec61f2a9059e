import Verif.Proof.BrowserFs
import Verif.Proof.CliPacked
import Verif.Spec.Browser
import Verif.Proof.PackTotal

/-!
# Packing a folder in the browser and with the tool
-/

namespace Xdvdfs

open Spec PM

variable {b b' : Browser} {fs : HostFs} {root : HostPath} {t : WebTree} {fuel : Nat}

/-! ## The tree does not depend on the order of listing -/

theorem entries_unique : ∀ {es es' : List (Str × WebTree)}, es.map Prod.fst = es'.map Prod.fst →
    (∀ n x x', (n, x) ∈ es → (n, x') ∈ es' → x = x') → es = es' := by
  intro es
  induction es with
  | nil => intro es' h _; cases es' with
    | nil => rfl
    | cons a l => simp at h
  | cons a es ih =>
    intro es' h hx
    cases es' with
    | nil => simp at h
    | cons a' es' =>
      simp only [List.map_cons, List.cons.injEq] at h
      obtain ⟨n, x⟩ := a
      obtain ⟨n', x'⟩ := a'
      simp only at h
      obtain ⟨rfl, h⟩ := h
      rw [hx n x x' (by simp) (by simp), ih h (fun m y y' h1 h2 => hx m y y' (by simp [h1]) (by simp [h2]))]

theorem sortNames_eq {a c : List Str} (h : ∀ n, n ∈ a ↔ n ∈ c) : sortNames a = sortNames c :=
  sorted_unique (sortNames_sorted a) (sortNames_sorted c) (fun n => by rw [sortNames_mem, sortNames_mem]; exact h n)

theorem populate_unique (hl : ∀ d n, n ∈ b.names d ↔ n ∈ b'.names d) : ∀ (fuel : Nat) {fuel' : Nat} {p : HostPath}
    {t t' : WebTree}, populate b fs fuel p = .ok t → populate b' fs fuel' p = .ok t' → t = t' := by
  intro fuel
  induction fuel with
  | zero => intro fuel' p t t' h; cases h
  | succ fuel ih =>
    intro fuel' p t t' h h'
    simp only [populate] at h
    rcases populate_ok h' with ⟨⟨d, hd⟩, rfl⟩ | ⟨hd, es', f', rfl, h2', h3'⟩
    · rw [hd] at h
      cases h; rfl
    · rw [hd] at h
      simp only at h
      split at h
      · cases h
      · obtain ⟨es, rfl, h2, h3⟩ := populateLoop_ok (acc' := []) _ h rfl (by simp)
        congr 1
        refine entries_unique ?_ ?_
        · rw [h2, h2']
          exact sortNames_eq (hl p)
        · intro n x x' hx hx'
          exact ih (h3 _ hx) (h3' _ hx')

theorem populateLoop_total {below : HostPath → Res WebTree} {p : HostPath} : ∀ (ns : List Str)
    (acc : List (Str × WebTree)), (∀ n ∈ ns, ∃ t, below (p ++ [n]) = .ok t) → ∃ t, populateLoop below p ns acc = .ok t := by
  intro ns
  induction ns with
  | nil => intro acc _; exact ⟨_, rfl⟩
  | cons n ns ih =>
    intro acc h
    obtain ⟨t, ht⟩ := h n (by simp)
    simp only [populateLoop, ht]
    exact ih _ (fun m hm => h m (by simp [hm]))

theorem populate_total (hL : ∀ q, fs (root ++ q) = some .dir → b.noList (root ++ q) = false)
    (hn : ∀ d n, n ∈ b.names d → fs (d ++ [n]) ≠ none) : ∀ (fuel : Nat) {p : Path}, fs (root ++ p) ≠ none →
    (∀ q, fs (root ++ p ++ q) ≠ none → q.length < fuel) → ∃ t, populate b fs fuel (root ++ p) = .ok t := by
  intro fuel
  induction fuel with
  | zero => intro p hp h; exact absurd (h [] (by simpa using hp)) (by simp)
  | succ fuel ih =>
    intro p hp h
    simp only [populate]
    cases hx : fs (root ++ p) with
    | none => exact absurd hx hp
    | some x =>
      cases x with
      | file d => exact ⟨_, rfl⟩
      | dir =>
        simp only
        rw [hL p hx]
        refine populateLoop_total _ _ fun n hm => ?_
        have hne := hn _ n hm
        rw [List.append_assoc] at hne ⊢
        refine ih hne fun q hq => ?_
        have := h ([n] ++ q) (by simpa using hq)
        simp at this
        omega

/-! ## Sources that are listed alike -/

theorem dirTreeLoopP_congr {rd rd' : ReadDir} (h : ∀ p, DirOf rd p → rd' p = rd p) : ∀ (fuel : Nat) (stack : List Path)
    (out : List (Path × List FileEntry)), (∀ p ∈ stack, DirOf rd p) →
    dirTreeLoopP rd' fuel stack out = dirTreeLoopP rd fuel stack out := by
  intro fuel
  induction fuel with
  | zero => intro stack out _; cases stack <;> rfl
  | succ fuel ih =>
    intro stack out hs
    cases stack with
    | nil => rfl
    | cons d ds =>
      have hd := hs d (by simp)
      simp only [dirTreeLoopP]
      rw [h d hd]
      cases hl : rd d with
      | ok l =>
        show (do Pl.op (.report (.discoveredDirectory l.length)); dirTreeLoopP rd' fuel _ _) = (do
          Pl.op (.report (.discoveredDirectory l.length)); dirTreeLoopP rd fuel _ _)
        rw [ih _ _ (fun p hp => ?_)]
        rcases List.mem_append.1 hp with hp | hp
        · rw [List.mem_reverse] at hp
          simp only [subdirPaths, List.mem_map, List.mem_filter] at hp
          obtain ⟨e, ⟨he, hed⟩, rfl⟩ := hp
          exact .sub hd hl he hed
        · exact hs p (by simp [hp])
      | err e => rfl
      | panic => rfl
      | hang => rfl

theorem createP_congr {rd rd' : ReadDir} (h : ∀ p, DirOf rd p → rd' p = rd p) (pts : Path → Str) (fuel : Nat) :
    createP rd' pts fuel = createP rd pts fuel := by
  unfold createP
  rw [dirTreeLoopP_congr h fuel [[]] [] (by intro p hp; rw [List.mem_singleton] at hp; subst hp; exact .root)]

/-- The operations that are not reports. -/
def Op.works : Op → Bool
  | .report _ => false
  | _ => true

/-- Two plans that differ in the reports only. -/
def SameWork (x y : Pl α) : Prop := x.res = y.res ∧ x.ops.filter Op.works = y.ops.filter Op.works

theorem SameWork.refl (x : Pl α) : SameWork x x := ⟨rfl, rfl⟩

theorem SameWork.bind {x y : Pl α} {f g : α → Pl β} (h : SameWork x y) (hf : ∀ a, SameWork (f a) (g a)) :
    SameWork (x >>= f) (y >>= g) := by
  obtain ⟨ops, res⟩ := x
  obtain ⟨ops', res'⟩ := y
  obtain ⟨h1, h2⟩ := h
  simp only at h1 h2
  subst h1
  show SameWork (Pl.bind _ _) (Pl.bind _ _)
  unfold Pl.bind
  cases res with
  | ok a => exact ⟨(hf a).1, by simp only [List.filter_append, h2, (hf a).2]⟩
  | err e => exact ⟨rfl, h2⟩
  | panic => exact ⟨rfl, h2⟩
  | hang => exact ⟨rfl, h2⟩

theorem opsRec_work (pts pts' : Path → Str) (x : Rec) :
    (opsRec pts x).filter Op.works = (opsRec pts' x).filter Op.works := by
  have : ∀ ls : List Listing, (ls.flatMap (opsEntry pts x.path)).filter Op.works =
      (ls.flatMap (opsEntry pts' x.path)).filter Op.works := by
    intro ls
    induction ls with
    | nil => rfl
    | cons l ls ih =>
      rw [List.flatMap_cons, List.flatMap_cons, List.filter_append, List.filter_append, ih]
      congr 1
  show (Op.write _ _ :: (x.r.fileListing.flatMap (opsEntry pts x.path)).filter Op.works : List Op) =
    Op.write _ _ :: (x.r.fileListing.flatMap (opsEntry pts' x.path)).filter Op.works
  rw [this]

theorem packDirsP_work (pts pts' : Path → Str) : ∀ (tables : PathMap TabWriter) (ds : PathMap Nat) (next : Nat),
    SameWork (packDirsP pts tables ds next) (packDirsP pts' tables ds next) := by
  intro tables
  induction tables with
  | nil => intro ds next; exact .refl _
  | cons x rest ih =>
    intro ds next
    obtain ⟨path, w⟩ := x
    simp only [packDirsP]
    refine .bind (.refl _) fun sector => .bind (.refl _) fun y => ?_
    obtain ⟨repr, n⟩ := y
    exact .bind ⟨rfl, opsRec_work _ _ _⟩ fun _ => ih _ _

theorem createP_work (rd : ReadDir) (pts pts' : Path → Str) (fuel : Nat) :
    SameWork (createP rd pts fuel) (createP rd pts' fuel) := by
  unfold createP
  refine .bind (.refl _) fun D => .bind (.refl _) fun M => .bind (.refl _) fun x => ?_
  obtain ⟨rootPath, rootTab⟩ := x
  refine .bind (.refl _) fun size => .bind (.refl _) fun y => ?_
  obtain ⟨s, n⟩ := y
  exact .bind (packDirsP_work _ _ _ _ _) fun _ => .refl _

theorem writes_work (S : SourceFs) : ∀ (ops : List Op), ops.flatMap (opWrites S) = (ops.filter Op.works).flatMap (opWrites S) := by
  intro ops
  induction ops with
  | nil => rfl
  | cons o ops ih =>
    cases o with
    | report p => exact ih
    | write off d => rw [List.filter_cons_of_pos rfl, List.flatMap_cons, List.flatMap_cons, ih]
    | copy p out n => rw [List.filter_cons_of_pos rfl, List.flatMap_cons, List.flatMap_cons, ih]

theorem ok_work (S : SourceFs) (ops : List Op) : (∀ o ∈ ops, OpOK S o) ↔ ∀ o ∈ ops.filter Op.works, OpOK S o := by
  constructor
  · intro h o ho; exact h o (List.mem_filter.1 ho).1
  · intro h o ho
    cases o with
    | report p => trivial
    | write off d => trivial
    | copy p out n => exact h _ (List.mem_filter.2 ⟨ho, rfl⟩)

/-- Two sources that are listed alike and deliver alike: what is written is the same. -/
theorem sameSource_pack {S S' : SourceFs} (hrd : ∀ p, DirOf S.readDir p → S'.readDir p = S.readDir p)
    (hcopy : ∀ p e, EntryIn S.readDir p e → e.isDir = false →
      S'.copy (p ++ [e.name]) 0 e.len = S.copy (p ++ [e.name]) 0 e.len) {fuel : Nat} {img0 : Bytes}
    {s : PackState ImgFile} (h : createImage (fileEnv S (fun _ => none)) fuel ⟨⟨img0, []⟩, []⟩ = (.ok (), s)) :
    ∃ s', createImage (fileEnv S' (fun _ => none)) fuel ⟨⟨img0, []⟩, []⟩ = (.ok (), s') ∧ s'.dev.img = s.dev.img := by
  obtain ⟨h1, h2⟩ := (file_create S fuel img0).2 ⟨s, h⟩
  have hw := createP_work S.readDir S'.pathToString S.pathToString fuel
  have hc := createP_congr hrd S'.pathToString fuel
  have hfrom := createP_fromSource h1
  have hop : ∀ o ∈ (createP S.readDir S.pathToString fuel).ops, opWrites S' o = opWrites S o ∧ (OpOK S o → OpOK S' o) := by
    intro o ho
    cases o with
    | report p => exact ⟨rfl, id⟩
    | write off d => exact ⟨rfl, id⟩
    | copy p out n =>
      obtain ⟨q, e, he, hd, rfl, rfl⟩ := hfrom _ ho
      simp only [opWrites, OpOK, hcopy q e he hd]
      exact ⟨trivial, id⟩
  have hwr : (createP S'.readDir S'.pathToString fuel).ops.flatMap (opWrites S') =
      (createP S.readDir S.pathToString fuel).ops.flatMap (opWrites S) := by
    rw [hc, writes_work, hw.2, ← writes_work]
    simp only [List.flatMap]
    congr 1
    exact List.map_congr_left fun o ho => (hop o ho).1
  obtain ⟨s', hs'⟩ := (file_create S' fuel img0).1 ⟨by rw [hc, hw.1]; exact h1, by
    rw [hc, ok_work, hw.2, ← ok_work]
    exact fun o ho => (hop o ho).2 (h2 o ho)⟩
  refine ⟨s', hs', ?_⟩
  rw [(file_result hs').1, (file_result h).1, hwr]

/-- If the folder can be listed and read, packing it is packing a directory that is listed in the order of its names. -/
theorem web_tool_pack (ht : populate b fs fuel root = .ok t) (hroot : fs root = some .dir) (hr : Readable b fs root)
    {n : Nat} {img0 : Bytes} {s : PackState ImgFile}
    (h : createImage (fileEnv (stdFs (nameOrder b) fs root) (fun _ => none)) n ⟨⟨img0, []⟩, []⟩ = (.ok (), s)) :
    ∃ s', createImage (fileEnv (webFs b fs root t) (fun _ => none)) n ⟨⟨img0, []⟩, []⟩ = (.ok (), s') ∧
      s'.dev.img = s.dev.img := by
  have hrd : ∀ p, DirOf (webFs b fs root t).readDir p →
      ∃ l, (webFs b fs root t).readDir p = .ok l ∧ (stdFs (nameOrder b) fs root).readDir p = .ok l :=
    fun p hp => web_readDir_eq ht hroot hr hp
  refine sameSource_pack (S := stdFs (nameOrder b) fs root) (S' := webFs b fs root t) ?_ ?_ h
  · intro p hp
    obtain ⟨l, h1, h2⟩ := hrd p (dirOf_back hrd hp)
    rw [h1, h2]
  · intro p e he hd
    have he' := entryIn_back hrd he
    rcases std_entry_host he with ⟨hx, _⟩ | ⟨_, d, hf, hlen⟩
    · rw [hd] at hx; cases hx
    · show webCopy b fs root t (p ++ [e.name]) 0 e.len = stdCopy (nameOrder b) fs root (p ++ [e.name]) 0 e.len
      obtain ⟨es, hes⟩ := web_dir_walk ht hroot he'.1
      obtain ⟨l, hl, hel⟩ := he'.2
      have hl' : webReadDir b fs root t p = .ok l := hl
      unfold webReadDir at hl'
      rw [hes] at hl'
      simp only at hl'
      obtain ⟨t', ht'⟩ := nameGet_some (webEntries_sub hl' hel)
      have hw : t.walk (p ++ [e.name]) = some t' := by
        rw [walk_append, hes]
        simp only [Option.bind_some, WebTree.walk]
        rw [ht']
      obtain ⟨f, hpf⟩ := walk_ok _ ht hw
      rcases populate_ok hpf with ⟨_, rfl⟩ | ⟨hx, _⟩
      · unfold webCopy stdCopy getFile
        rw [hw, hf]
        simp only [hr _ d hf, Bool.false_eq_true, if_false]
        rw [if_pos (by simp [hlen])]
        simp [nameOrder, hlen]
      · rw [hf] at hx; cases hx

/-- What the browser leaves is what the tool leaves, possibly followed by zeros. -/
theorem web_tool_image {S : SourceFs} {fuel : Nat} {s' : PackState WebFile} {s : PackState ImgFile}
    (h : createImage (webEnv b S) fuel newStream = (.ok (), s'))
    (hs : createImage (fileEnv S (fun _ => none)) fuel ⟨⟨[], []⟩, []⟩ = (.ok (), s)) : ZeroTail s.dev.img s'.dev.buf := by
  obtain ⟨_, _, h3, _, P, h5, _⟩ := web_create h
  obtain ⟨s2, k1, k2, _, _⟩ := web_as_file h
  rw [(file_result hs).1]
  have k3 := (file_result k1).1
  rw [k2] at k3
  generalize (createP S.readDir S.pathToString fuel).ops.flatMap (opWrites S) = W at h5 k3 ⊢
  have hend : ∀ w ∈ W, w.1 + w.2.length ≤ s'.dev.buf.length := by
    intro w hw
    have := streamTrace_end (W ++ P) [] w (List.mem_append_left _ hw)
    rwa [← h5] at this
  refine ZeroTail.pad ?_ h3
  generalize hK : s'.dev.buf.length = K at hend h3 k3
  have key : ∀ (W : List (Nat × Bytes)) {a c : Bytes}, ZeroTail a c → (∀ w ∈ W, w.1 + w.2.length ≤ c.length) →
      ZeroTail (applyTrace a W) (applyTrace c W) ∧ (applyTrace c W).length = c.length := by
    intro W
    induction W with
    | nil => intro a c hz _; exact ⟨hz, rfl⟩
    | cons w W ih =>
      intro a c hz hW
      have hw := hW w (by simp)
      have hl := (writeAt_in hw).2
      have := ih (hz.write hw) (fun x hx => by rw [hl]; exact hW x (by simp [hx]))
      rw [hl] at this
      exact this
  obtain ⟨g1, g2⟩ := key W (a := []) (c := List.replicate K 0) ⟨K, by simp⟩ (by simpa using hend)
  rw [List.length_replicate] at g2
  rw [k3]
  have : padOf (applyTrace (List.replicate K 0) W) = [] := by
    unfold padOf
    rw [g2, if_neg (by omega)]
  rw [this]
  exact g1

/-! ## Repacking -/

theorem repackWeb_of_scan {copier : Copier} {wf fuel : Nat} {fs fs' : ImgFs}
    (hc : fs.cache = Trie.empty) {s s1 : PackState WebFile} {D : List (Path × List FileEntry)}
    (hx : imgTreeLoop wf fuel fs [[]] [] s = (.ok (D, fs'), s1)) :
    repackWeb b copier wf fuel fs s = createImage (webEnv b (pureSource wf copier fs')) fuel s := by
  have hinv : CacheInv fs.dev wf fs.vol.root fs.cache := by rw [hc]; exact cacheInv_empty _ _ _
  obtain ⟨_, h2⟩ := imgTreeLoop_spec fuel fs [[]] [] s hinv (by simp)
  rw [hx] at h2
  obtain ⟨j1, j2, _⟩ := h2 D fs' rfl
  have hdt := j1 (webEnv b (pureSource wf copier fs')) (by
    simp only [webEnv, pureSource]; rw [j2.dev, j2.vol])
  simp only [repackWeb, createImage, dirTree, PM.bind_def, hdt, hx]
  exact (congrFun (createFrom_congr (webEnv b (fs'.source (fun _ => .err .other) copier))
    (imgReadDir fs'.dev wf fs'.vol.root) D) s1).symm

/-- If no write fails, repacking to a stream succeeds when repacking to a file does. -/
theorem repackWeb_works (hb : ∀ k, b.faults k = false) {copier : Copier} {wf fuel : Nat} {fs : ImgFs}
    (hc : fs.cache = Trie.empty)
    (h : (repackImage copier (fun _ => none) wf fuel fs ⟨⟨[], []⟩, []⟩).1 = .ok ()) :
    ∃ s', repackWeb b copier wf fuel fs newStream = (.ok (), s') := by
  have hi := imgTreeLoop_indep wf fuel fs [[]] [] (⟨⟨[], []⟩, []⟩ : PackState ImgFile) newStream
  rcases h1 : imgTreeLoop wf fuel fs [[]] [] (⟨⟨[], []⟩, []⟩ : PackState ImgFile) with ⟨r1, s1⟩
  rcases h2 : imgTreeLoop wf fuel fs [[]] [] newStream with ⟨r2, s2⟩
  rw [h1, h2] at hi
  simp only at hi
  subst hi
  cases r1 with
  | ok x =>
    obtain ⟨D, fs'⟩ := x
    rw [repackImage_of_scan hc h1] at h
    rcases hcr : createImage (fileEnv (pureSource wf copier fs') (fun _ => none)) fuel ⟨⟨[], []⟩, []⟩ with ⟨r, s'⟩
    rw [hcr] at h
    simp only at h
    subst h
    rw [repackWeb_of_scan hc h2]
    exact web_create_works hb hcr
  | err e => simp only [repackImage, PM.bind_def, h1] at h; cases h
  | panic => simp only [repackImage, PM.bind_def, h1] at h; cases h
  | hang => simp only [repackImage, PM.bind_def, h1] at h; cases h

/-! ## The whole operation -/

/-- How packing can end. -/
theorem webPackImpl_ok {b : Browser} {fs : HostFs} {dest : HostPath} {pack : PM WebFile Unit}
    (h : (webPackImpl b fs dest pack).reply = .ok ()) : ∃ s, pack newStream = (.ok (), s) ∧
      webPackImpl b fs dest pack = ⟨.ok (), .stage .packingImage :: s.log.map .progress ++ [.stage .waitingForFlush],
        fs.set dest (.file s.dev.buf)⟩ ∧ canWrite b fs dest = true := by
  unfold webPackImpl at h ⊢
  split at h
  · next hw =>
    rw [if_pos hw]
    rcases hp : pack newStream with ⟨r, s⟩
    rw [hp] at h
    cases r with
    | ok u =>
      simp only at h ⊢
      split at h
      · cases h
      · next hc => rw [if_neg hc]; exact ⟨s, rfl, rfl, hw⟩
    | err e => cases h
    | panic => cases h
    | hang => cases h
  · cases h

theorem webPackImpl_not_ok {b : Browser} {fs : HostFs} {dest : HostPath} {pack : PM WebFile Unit}
    (h : (webPackImpl b fs dest pack).reply ≠ .ok ()) : (webPackImpl b fs dest pack).host = fs := by
  unfold webPackImpl at h ⊢
  split
  · next hw =>
    rw [if_pos hw] at h
    rcases hp : pack newStream with ⟨r, s⟩
    rw [hp] at h
    cases r with
    | ok u =>
      simp only at h ⊢
      split
      · rfl
      · next hc => rw [if_neg hc] at h; exact absurd rfl h
    | err e => rfl
    | panic => rfl
    | hang => rfl
  · rfl

theorem browserPack_folder {t : Tool} {p dest : HostPath} (h : (browserPack b t fs (.folder p) dest).reply = .ok ()) :
    ∃ tree s, populate b fs t.fuel p = .ok tree ∧
      createImage (webEnv b (webFs b fs p tree)) t.fuel newStream = (.ok (), s) ∧
      browserPack b t fs (.folder p) dest = ⟨.ok (), .stage .packingImage :: s.log.map .progress ++ [.stage .waitingForFlush],
        fs.set dest (.file s.dev.buf)⟩ ∧ canWrite b fs dest = true := by
  unfold browserPack at h ⊢
  simp only at h ⊢
  unfold webFsNew at h ⊢
  cases hp : populate b fs t.fuel p with
  | ok tree =>
    rw [hp] at h
    simp only at h ⊢
    obtain ⟨s, h1, h2, h3⟩ := webPackImpl_ok h
    exact ⟨tree, s, rfl, h1, h2, h3⟩
  | err e => rw [hp] at h; cases h
  | panic => rw [hp] at h; cases h
  | hang => rw [hp] at h; cases h

theorem webDev_file {p : HostPath} {img : Bytes} (h : fs p = some (.file img)) (hr : b.noRead p = false) :
    webDev b fs p = fileDev img := by
  unfold webDev getFile
  rw [hr, h]
  rfl

theorem browserPack_image {t : Tool} {p dest : HostPath} {img : Bytes} {base : Nat} {vol : VolDesc}
    (hp : fs p = some (.file img)) (hr : b.noRead p = false) (h1 : offsetNew (fileDev img) = .ok base)
    (h2 : readVolume (offsetDev (fileDev img) base) = .ok vol) :
    browserPack b t fs (.image p) dest = webPackImpl b fs dest
      (repackWeb b (defaultCopier (offsetDev (fileDev img) base)) t.wfuel t.fuel
        ⟨offsetDev (fileDev img) base, vol, Trie.empty⟩) := by
  have h3 : ImgFs.new (offsetDev (fileDev img) base) =
      .ok (some ⟨offsetDev (fileDev img) base, vol, Trie.empty⟩) := by unfold ImgFs.new; rw [h2]
  unfold browserPack
  simp only [webDev_file hp hr, h1, h3]

end Xdvdfs
