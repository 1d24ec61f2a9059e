import Verif.Proof.Length
import Verif.Props.SameImage

/-!
# Property C151: how long an image becomes
-/

namespace Xdvdfs.Props

open Xdvdfs Spec TabWriter ImageLength

/-- What is known about a place, from the plan. -/
theorem place_facts {fs : SourceFs} {pts : Path → Str} {D M rootW rootSize next recs n'}
    (hS : PlanShape fs.readDir pts D M rootW rootSize next recs n' []) :
    (∀ x ∈ (placedAll rootSize recs).map placeOf, x.isDir = true → DirOf fs.readDir x.path ∧
      ∃ l, fs.readDir x.path = .ok l ∧ 0 < x.size ∧ tableBytes l ≤ x.size ∧
        sectorsFor x.size ≤ tableAtMost l) ∧
    (∀ x ∈ (placedAll rootSize recs).map placeOf, x.isDir = false → ∃ p e, EntryIn fs.readDir p e ∧
      x.path = p ++ [e.name] ∧ e.isDir = false) ∧
    ∀ x ∈ (placedAll rootSize recs).map placeOf, ∀ p e, EntryIn fs.readDir p e → x.path = p ++ [e.name] →
      x.isDir = e.isDir := by
  have hkind : ∀ x ∈ (placedAll rootSize recs).map placeOf, (x.path = [] ∧ x.isDir = true) ∨
      ∃ p e, EntryIn fs.readDir p e ∧ x.path = p ++ [e.name] ∧ e.isDir = x.isDir := by
    intro x hx
    obtain ⟨⟨q, l⟩, hl, rfl⟩ := List.mem_map.1 hx
    unfold placedAll at hl
    rcases List.mem_cons.1 hl with he | hm
    · cases he; exact .inl ⟨rfl, rfl⟩
    · obtain ⟨y, hy, hm⟩ := List.mem_flatMap.1 hm
      simp only [tagged, List.mem_map] at hm
      obtain ⟨l', hl', he⟩ := hm
      cases he
      obtain ⟨lst, e, g1, g2, g3, g4, _⟩ := hS.entry hy hl'
      exact .inr ⟨y.path, e, ⟨hS.dirOf hy, lst, g1, g2⟩, by rw [g3]; rfl, g4⟩
  refine ⟨?_, ?_, ?_⟩
  · intro x hx hd
    have hdir : DirOf fs.readDir x.path := by
      rcases hkind x hx with ⟨h1, _⟩ | ⟨p, e, ⟨hp, lst, g1, g2⟩, h2, h3⟩
      · rw [h1]; exact .root
      · rw [h2]; exact .sub hp g1 g2 (by rw [h3, hd])
    refine ⟨hdir, ?_⟩
    obtain ⟨⟨q, l⟩, hl, rfl⟩ := List.mem_map.1 hx
    obtain ⟨y, hy, hyp⟩ := hS.recOf hdir
    obtain ⟨m, sz, k1, k2, k3, k4, k5, k6, k7, k8⟩ := hS.recPlace hy
    have hyq : y.path = q := hyp
    subst hyq
    have := nodup_fst_inj hS.paths_nodup k1 hl
    subst this
    obtain ⟨lst, b1, b2, b3⟩ := (hS.recOK hy).built
    have hsum : ((lst.map (itemOf M y.path)).map (fun it => elen it.name.length)).sum = tableBytes lst := by
      unfold tableBytes
      rw [List.map_map]
      rfl
    obtain ⟨c1, c2, c3⟩ := ImageLength.buildTable_size b3 k4 hsum
    have c4 := buildTable_within b3 (K := tableBytes lst / 1780 + 1) (by omega) k4 (by omega)
    refine ⟨lst, b1, ?_, ?_, ?_⟩
    · show 0 < m.size; omega
    · show tableBytes lst ≤ m.size; omega
    · show sectorsFor m.size ≤ _
      unfold tableAtMost sectorsFor
      unfold roundUp at k6
      split
      · next hle => have := c3 hle; omega
      · omega
  · intro x hx hd
    rcases hkind x hx with ⟨_, h1⟩ | ⟨p, e, h1, h2, h3⟩
    · rw [hd] at h1; cases h1
    · exact ⟨p, e, h1, h2, by rw [h3, hd]⟩
  · intro x hx p e he hp
    rcases hkind x hx with ⟨h1, _⟩ | ⟨p', e', he', h2, h3⟩
    · rw [h1] at hp; exact absurd hp (by simp)
    · rw [hp] at h2
      obtain ⟨q1, q2⟩ := List.append_inj' h2 rfl
      subst q1
      obtain ⟨hd, l, g1, g2⟩ := he
      obtain ⟨_, l', g1', g2'⟩ := he'
      rw [g1] at g1'
      cases g1'
      have hn : e.name = e'.name := by simpa using q2
      rw [distinct_unique (hS.allDistinct _ _ hd g1) g2 g2' (by rw [hn]; rfl), h3]

/-- The paths of the directories and of the files among the places. -/
theorem place_kinds {fs : SourceFs} {pts : Path → Str} {D M rootW rootSize next recs n'}
    (hS : PlanShape fs.readDir pts D M rootW rootSize next recs n' []) {tree : List (Path × List FileEntry)}
    (hT : TreeOf fs.readDir tree) {places : List Place} (hp : places = (placedAll rootSize recs).map placeOf)
    (hmem : ∀ q, q ∈ places.map Place.path ↔ q = [] ∨ ∃ p e, EntryIn fs.readDir p e ∧ q = p ++ [e.name])
    (hnd : (places.map Place.path).Nodup) :
    ((places.filter Place.isDir).map Place.path).Perm (tree.map Prod.fst) ∧
    ((places.filter (fun x => !x.isDir)).map Place.path).Perm
      (tree.flatMap (fun x => (x.2.filter (fun e => !e.isDir)).map (fun e => x.1 ++ [e.name]))) := by
  obtain ⟨f1, f2, f3⟩ := place_facts hS
  rw [← hp] at f1 f2 f3
  refine ⟨(List.perm_ext_iff_of_nodup (hnd.sublist ((List.filter_sublist).map _)) hT.1).2 ?_,
    (List.perm_ext_iff_of_nodup (hnd.sublist ((List.filter_sublist).map _)) ?_).2 ?_⟩
  · intro q
    constructor
    · intro hq
      obtain ⟨x, hx, rfl⟩ := List.mem_map.1 hq
      obtain ⟨hx, hd⟩ := List.mem_filter.1 hx
      obtain ⟨g1, l, g2, _⟩ := f1 x hx hd
      exact List.mem_map.2 ⟨_, (hT.2 _ _).2 ⟨g1, g2⟩, rfl⟩
    · intro hq
      obtain ⟨⟨q, l⟩, hx, rfl⟩ := List.mem_map.1 hq
      obtain ⟨g1, _⟩ := (hT.2 _ _).1 hx
      show q ∈ _
      have hin : q = [] ∨ ∃ p e, EntryIn fs.readDir p e ∧ e.isDir = true ∧ q = p ++ [e.name] := by
        cases g1 with
        | root => exact .inl rfl
        | sub a b c d => exact .inr ⟨_, _, ⟨a, _, b, c⟩, d, rfl⟩
      have hm : q ∈ places.map Place.path := (hmem q).2 (by
        rcases hin with h | ⟨p, e, a, _, b⟩
        · exact .inl h
        · exact .inr ⟨p, e, a, b⟩)
      obtain ⟨x, hx, hxq⟩ := List.mem_map.1 hm
      refine List.mem_map.2 ⟨x, List.mem_filter.2 ⟨hx, ?_⟩, hxq⟩
      rcases hin with h | ⟨p, e, a, b, c⟩
      · cases hd : x.isDir with
        | true => rfl
        | false =>
          obtain ⟨p, e, _, k, _⟩ := f2 x hx hd
          rw [hxq, h] at k
          exact absurd k (by simp)
      · rw [f3 x hx p e a (by rw [hxq, c]), b]
  · rw [List.nodup_iff_pairwise_ne, List.pairwise_flatMap]
    refine ⟨?_, ?_⟩
    · intro x hx
      obtain ⟨g1, g2⟩ := (hT.2 x.1 x.2).1 hx
      have hd := hS.allDistinct _ _ g1 g2
      unfold DistinctNames at hd
      rw [List.pairwise_map] at hd ⊢
      refine (hd.sublist List.filter_sublist).imp ?_
      intro a b hab he
      have he : a.name = b.name := by simpa using he
      exact hab (by rw [he]; rfl)
    · have := hT.1
      rw [List.nodup_iff_pairwise_ne, List.pairwise_map] at this
      refine this.imp ?_
      intro a b hab q hq q' hq' he
      subst he
      obtain ⟨e, _, rfl⟩ := List.mem_map.1 hq
      obtain ⟨e', _, h⟩ := List.mem_map.1 hq'
      exact hab (List.append_inj' h rfl).1.symm
  · intro q
    constructor
    · intro hq
      obtain ⟨x, hx, rfl⟩ := List.mem_map.1 hq
      obtain ⟨hx, hd⟩ := List.mem_filter.1 hx
      obtain ⟨p, e, ⟨g0, l, g1, g2⟩, g3, g4⟩ := f2 x hx (by simpa using hd)
      refine List.mem_flatMap.2 ⟨(p, l), (hT.2 _ _).2 ⟨g0, g1⟩, ?_⟩
      rw [g3]
      exact List.mem_map.2 ⟨e, List.mem_filter.2 ⟨g2, by simp [g4]⟩, rfl⟩
    · intro hq
      obtain ⟨⟨p, l⟩, hx, hq⟩ := List.mem_flatMap.1 hq
      obtain ⟨e, he, rfl⟩ := List.mem_map.1 hq
      obtain ⟨he, hd⟩ := List.mem_filter.1 he
      obtain ⟨g1, g2⟩ := (hT.2 _ _).1 hx
      have hE : EntryIn fs.readDir p e := ⟨g1, l, g2, he⟩
      obtain ⟨x, hx, hxq⟩ := List.mem_map.1 ((hmem (p ++ [e.name])).2 (.inr ⟨p, e, hE, rfl⟩))
      refine List.mem_map.2 ⟨x, List.mem_filter.2 ⟨hx, ?_⟩, hxq⟩
      rw [f3 x hx p e hE hxq]
      exact hd

/-! ## C151: the length -/

/-- C151: the length of an image packed into a new file lies between what the source tree needs and
what is enough for it in any order, both in whole units of 64 KiB. -/
theorem C151_length_between {fs : SourceFs} {content : Path → Bytes} {faults : Faults} {fuel : Nat}
    {s' : PackState ImgFile} (hb : Bounded fs) (hf : FaithfulTo fs content)
    (h : createImage (fileEnv fs faults) fuel ⟨⟨[], []⟩, []⟩ = (.ok (), s'))
    {tree : List (Path × List FileEntry)} (hT : TreeOf fs.readDir tree) :
    wholeUnits (leastSectors content tree) ≤ s'.dev.img.length ∧
      s'.dev.img.length ≤ wholeUnits (mostSectors content tree) := by
  obtain ⟨places, e, hlaid, hadj, ⟨hroom, hleast⟩, _, hfiles, _, D, M, rootW, rootSize, next, recs, n', hS, hp⟩ :=
    pack_layout hb hf h
  have hmult := (C35_length_multiple h).2
  obtain ⟨f1, _, _⟩ := place_facts hS
  rw [← hp] at f1
  obtain ⟨kd, kf⟩ := place_kinds hS hT hp hlaid.2.1 hlaid.1
  -- sums over the directories and over the files of the tree
  have sumD : ∀ g : List FileEntry → Nat,
      ((places.filter Place.isDir).map (fun x => match fs.readDir x.path with | .ok l => g l | _ => 0)).sum =
        (tree.map (fun x => g x.2)).sum := by
    intro g
    have h1 := (kd.map (fun q => match fs.readDir q with | .ok l => g l | _ => 0)).sum_nat
    rw [List.map_map, List.map_map] at h1
    refine h1.trans ?_
    congr 1
    apply List.map_congr_left
    intro x hx
    simp only [Function.comp, ((hT.2 x.1 x.2).1 hx).2]
  have sumF : ∀ g : Nat → Nat,
      ((places.filter (fun x => !x.isDir)).map (fun x => g x.size)).sum =
        (tree.map (fun x => ((fileLengths content x).map g).sum)).sum := by
    intro g
    have h1 := (kf.map (fun q => g (content q).length)).sum_nat
    rw [ImageLength.sum_flatMap, List.map_map] at h1
    refine Eq.trans ?_ (h1.trans ?_)
    · congr 1
      apply List.map_congr_left
      intro x hx
      obtain ⟨hx, hd⟩ := List.mem_filter.1 hx
      simp only [Function.comp, (hfiles x hx (by simpa using hd)).1]
    · congr 1
      apply List.map_congr_left
      intro x _
      unfold fileLengths
      rw [List.map_map, List.map_map]
      rfl
  constructor
  · have hs := adjoining_needs hadj hroom.2
    rw [sum_split Place.isDir, sumF (fun n => (n + 2047) / 2048)] at hs
    have hle : ((places.filter Place.isDir).map (fun x => match fs.readDir x.path with
        | .ok l => sectorsFor (tableBytes l) | _ => 0)).sum ≤
        ((places.filter Place.isDir).map (fun x => (x.size + 2047) / 2048)).sum := by
      apply Xdvdfs.sum_le
      intro x hx
      obtain ⟨hx, hd⟩ := List.mem_filter.1 hx
      obtain ⟨_, l, g1, g2, g3, _⟩ := f1 x hx hd
      simp only [g1]
      exact Nat.max_le.2 ⟨by omega, by omega⟩
    rw [sumD (fun l => sectorsFor (tableBytes l))] at hle
    have hroot : 0 < (tree.map (fun x => sectorsFor (tableBytes x.2))).sum := by
      have hr : ([] : Path) ∈ tree.map Prod.fst := by
        refine kd.mem_iff.1 ?_
        obtain ⟨x, hx, hxp⟩ := List.mem_map.1 ((hlaid.2.1 []).2 (.inl rfl))
        refine List.mem_map.2 ⟨x, List.mem_filter.2 ⟨hx, ?_⟩, hxp⟩
        obtain ⟨vol, _, hv, _⟩ := hlaid.2.2
        exact (hv x hx hxp).1
      obtain ⟨x, hx, _⟩ := List.mem_map.1 hr
      have : ∀ {l : List (Path × List FileEntry)}, x ∈ l → 0 < (l.map (fun x => sectorsFor (tableBytes x.2))).sum := by
        intro l hl
        cases l with
        | nil => cases hl
        | cons y ys =>
          simp only [List.map_cons, List.sum_cons]
          unfold sectorsFor
          omega
      exact this hx
    unfold wholeUnits leastSectors
    rw [ImageLength.sum_add]
    rcases hs with hs | hs <;> omega
  · apply hleast
    · unfold wholeUnits; omega
    · have he := adjoining_end hadj
      rw [sum_split Place.isDir, sumF sectorsFor] at he
      have hle : ((places.filter Place.isDir).map (fun x => sectorsFor x.size)).sum ≤
          ((places.filter Place.isDir).map (fun x => match fs.readDir x.path with
          | .ok l => tableAtMost l | _ => 0)).sum := by
        apply Xdvdfs.sum_le
        intro x hx
        obtain ⟨hx, hd⟩ := List.mem_filter.1 hx
        obtain ⟨_, l, g1, _, _, g4⟩ := f1 x hx hd
        simp only [g1]
        exact g4
      rw [sumD tableAtMost] at hle
      have hm : e ≤ mostSectors content tree := by
        unfold mostSectors
        rw [ImageLength.sum_add]
        omega
      refine ⟨?_, ?_⟩
      · unfold wholeUnits mostSectors; omega
      · intro x hx _
        have := adjoining_stop hadj x hx
        unfold wholeUnits
        omega

/-- C151: if the entries of every directory fit into one sector and no file is empty, then the tree
determines the length. -/
theorem C151_length_partial {fs : SourceFs} {content : Path → Bytes} {faults : Faults} {fuel : Nat}
    {s' : PackState ImgFile} (hb : Bounded fs) (hf : FaithfulTo fs content)
    (h : createImage (fileEnv fs faults) fuel ⟨⟨[], []⟩, []⟩ = (.ok (), s'))
    {tree : List (Path × List FileEntry)} (hT : TreeOf fs.readDir tree)
    (hsmall : ∀ x ∈ tree, tableBytes x.2 ≤ 2048) (hne : ∀ x ∈ tree, ∀ n ∈ fileLengths content x, n ≠ 0) :
    s'.dev.img.length = wholeUnits (33 + (tree.map (fun x =>
      1 + ((fileLengths content x).map (fun n => (n + 2047) / 2048)).sum)).sum) := by
  obtain ⟨h1, h2⟩ := C151_length_between hb hf h hT
  have e1 : leastSectors content tree = 33 + (tree.map (fun x =>
      1 + ((fileLengths content x).map (fun n => (n + 2047) / 2048)).sum)).sum := by
    unfold leastSectors
    congr 2
    apply List.map_congr_left
    intro x hx
    have := hsmall x hx
    unfold sectorsFor
    omega
  have e2 : mostSectors content tree = 33 + (tree.map (fun x =>
      1 + ((fileLengths content x).map (fun n => (n + 2047) / 2048)).sum)).sum := by
    unfold mostSectors
    congr 2
    apply List.map_congr_left
    intro x hx
    unfold tableAtMost
    rw [if_pos (hsmall x hx)]
    congr 2
    apply List.map_congr_left
    intro n hn
    have := hne x hx n hn
    unfold sectorsFor
    omega
  rw [e1] at h1
  rw [e2] at h2
  omega

/-! ## Two files -/

/-- The places of two files in the root directory. -/
theorem flat_two_places {a b : Str × Bytes} (hok : FlatOk [a, b]) {s' : PackState ImgFile}
    (h : createImage (fileEnv (flatFs [a, b]) (fun _ => none)) 1 ⟨⟨[], []⟩, []⟩ = (.ok (), s')) :
    ∃ pr pa pb : Place, ∃ e, Adjoining 33 [pr, pa, pb] e ∧ sectorsFor pr.size = 1 ∧ pa.isDir = false ∧
      pa.size = a.2.length ∧ pb.isDir = false ∧ pb.size = b.2.length ∧ HasRoom [pr, pa, pb] s'.dev.img.length ∧
      ∀ n, n % 65536 = 0 → HasRoom [pr, pa, pb] n → s'.dev.img.length ≤ n := by
  obtain ⟨places, e, hlaid, hadj, ⟨hroom, hleast⟩, _, hfiles, _, D, M, rootW, rootSize, next, recs, n', hS, hp⟩ :=
    pack_layout (flat_bounded _) (flat_faithful hok.distinct) h
  obtain ⟨f1, _, f3⟩ := place_facts hS
  rw [← hp] at f1 f3
  obtain ⟨y, hy, hyp⟩ := hS.recOf (p := []) .root
  have hrecs : recs = [y] := by
    have hnd : (recs.map Rec.path).Nodup := by
      have h1 := hS.tabs.sorted.nodup
      rw [hS.split, List.append_nil, List.map_map] at h1
      exact h1
    have hall : ∀ x ∈ recs, x.path = [] := fun x hx => (flat_dirs _).1 (hS.dirOf hx)
    cases recs with
    | nil => cases hy
    | cons x xs =>
      cases xs with
      | nil => rw [List.mem_singleton] at hy; rw [hy]
      | cons z zs =>
        rw [List.map_cons, List.nodup_cons] at hnd
        exact absurd (by rw [hall x (by simp), ← hall z (by simp)]; simp) hnd.1
  obtain ⟨lst, b1, b2, b3⟩ := (hS.recOK hy).built
  obtain ⟨m, m', hr⟩ := (hS.recOK hy).repr
  rw [hyp] at b1 b3
  simp only [flatFs, if_true, Res.ok.injEq, List.map_cons, List.map_nil] at b1
  subst b1
  have hnames := buildTable_two b3 hr
  have hi : ∀ x : Str × Bytes, (itemOf M [] ⟨x.1, false, x.2.length⟩).name = x.1 := by
    intro x; unfold itemOf; split <;> rfl
  rw [hi, hi] at hnames
  obtain ⟨la, lb, hl⟩ : ∃ la lb, y.r.fileListing = [la, lb] := by
    cases hc : y.r.fileListing with
    | nil => rw [hc] at hnames; simp at hnames
    | cons la t =>
      cases t with
      | nil => rw [hc] at hnames; simp at hnames
      | cons lb t =>
        cases t with
        | nil => exact ⟨la, lb, rfl⟩
        | cons _ _ => rw [hc] at hnames; simp at hnames
  rw [hl] at hnames
  simp only [List.map_cons, List.map_nil, List.cons.injEq, and_true] at hnames
  have hpl : places = [placeOf ([], rootListing rootSize), placeOf ([a.1], la), placeOf ([b.1], lb)] := by
    rw [hp, hrecs]
    simp only [placedAll, List.flatMap_cons, List.flatMap_nil, tagged, hl, hyp, List.map_cons, List.map_nil,
      List.append_nil, List.nil_append, hnames.1, hnames.2]
  have hfile : ∀ x ∈ [a, b], ∀ l, placeOf ([x.1], l) ∈ places → l.isDir = false ∧ l.size = x.2.length := by
    intro x hx l hm
    have hd : l.isDir = false := f3 _ hm [] ⟨x.1, false, x.2.length⟩ ((flat_entries _ _).2 ⟨rfl, x, hx, rfl⟩) rfl
    refine ⟨hd, ?_⟩
    have hz : (flatContent [a, b] [x.1]).length = l.size := (hfiles _ hm hd).1
    unfold flatContent at hz
    rw [flat_find hok.distinct hx] at hz
    exact hz.symm
  obtain ⟨ca, cb⟩ := hfile a (by simp) la (by rw [hpl]; simp)
  obtain ⟨da, db⟩ := hfile b (by simp) lb (by rw [hpl]; simp)
  obtain ⟨_, l, g1, g2, g3, g4⟩ := f1 (placeOf ([], rootListing rootSize)) (by rw [hpl]; simp) rfl
  have g1 : (flatFs [a, b]).readDir [] = .ok l := g1
  simp only [flatFs, if_true, Res.ok.injEq, List.map_cons, List.map_nil] at g1
  rw [hpl] at hadj hroom hleast
  refine ⟨_, _, _, e, hadj, ?_, ca, cb, da, db, hroom, hleast⟩
  have hs : tableBytes l ≤ 2048 := by
    have ha := hok.names a (by simp)
    have hb := hok.names b (by simp)
    have la' := utf8Len_ge a.1
    have lb' := utf8Len_ge b.1
    rw [← g1]
    simp only [tableBytes, List.map_cons, List.map_nil, List.sum_cons, List.sum_nil]
    omega
  unfold tableAtMost at g4
  rw [if_pos hs] at g4
  unfold sectorsFor at g4 ⊢
  omega

/-- A file of 30 sectors. -/
def thirty : Str × Bytes := (['b'], List.replicate 61440 7)

theorem thirty_length : thirty.2.length = 61440 := List.length_replicate

theorem thirty_ok {files : List (Str × Bytes)} (h : files.Perm [(['a'], []), thirty]) : FlatOk files := by
  refine ascii_flatOk ?_ ?_ ?_ ?_
  · refine ((h.map Prod.fst).pairwise_iff (R := fun a b => ¬ SameName a b) (fun h1 h2 => h1 h2.symm)).2 ?_
    show DistinctNames [['a'], ['b']]
    unfold DistinctNames; decide
  · intro x hx
    have := h.mem_iff.1 hx
    simp only [List.mem_cons, List.not_mem_nil, or_false] at this
    rcases this with rfl | rfl
    · exact ⟨by decide, by decide⟩
    · exact ⟨(by decide : utf8Len ['b'] ≤ 255), (by decide : ∀ c ∈ ['b'], c.toNat < 0x80)⟩
  · intro x hx
    have := h.mem_iff.1 hx
    simp only [List.mem_cons, List.not_mem_nil, or_false] at this
    rcases this with rfl | rfl
    · decide
    · rw [thirty_length]; decide
  · rw [h.length_eq]; exact (by omega : 2 ≤ 800)

/-- C151 is false without these conditions: the same two files, one of them empty, listed in the one
order and in the other, give images of different lengths. -/
theorem C151_order_false : ∃ s s',
    createImage (fileEnv (flatFs [(['a'], []), thirty]) (fun _ => none)) 1 ⟨⟨[], []⟩, []⟩ = (.ok (), s) ∧
    createImage (fileEnv (flatFs [thirty, (['a'], [])]) (fun _ => none)) 1 ⟨⟨[], []⟩, []⟩ = (.ok (), s') ∧
    s.dev.img.length = 196608 ∧ s'.dev.img.length = 131072 := by
  have k1 := thirty_ok (.refl _)
  have k2 := thirty_ok (.swap (['a'], []) thirty [])
  obtain ⟨s, h⟩ := flat_packs k1 []
  obtain ⟨s', h'⟩ := flat_packs k2 []
  have m1 := (C35_length_multiple h).2
  have m2 := (C35_length_multiple h').2
  refine ⟨s, s', h, h', ?_, ?_⟩
  · obtain ⟨pr, pa, pb, e, ⟨a1, a2, a3, _⟩, b1, b2, b3, b4, b5, b6, b7⟩ := flat_two_places k1 h
    rw [thirty_length] at b5
    simp only [List.length_nil] at b3
    have e1 : pr.stop ≤ 2048 * 34 := by have := place_stop_le pr; rw [a1, b1] at this; omega
    have e2 : pb.stop = 2048 * 35 + 61440 := by
      unfold Place.stop
      rw [b4, a3, b1, b3, b5]
      simp [sectorsFor]
    have l1 := b6.2 pb (by simp) (by omega)
    have l2 := b7 196608 (by decide) ⟨by omega, by
      intro x hx hne
      simp only [List.mem_cons, List.not_mem_nil, or_false] at hx
      rcases hx with rfl | rfl | rfl
      · omega
      · exact absurd b3 hne
      · omega⟩
    omega
  · obtain ⟨pr, pb, pa, e, ⟨a1, a2, a3, _⟩, b1, b4, b5, b2, b3, b6, b7⟩ := flat_two_places k2 h'
    rw [thirty_length] at b5
    simp only [List.length_nil] at b3
    have e1 : pr.stop ≤ 2048 * 34 := by have := place_stop_le pr; rw [a1, b1] at this; omega
    have e2 : pb.stop = 2048 * 34 + 61440 := by
      unfold Place.stop
      rw [b4, a2, b1, b5]
      simp
    have l1 := b6.2 pb (by simp) (by omega)
    have l2 := b7 131072 (by decide) ⟨by omega, by
      intro x hx hne
      simp only [List.mem_cons, List.not_mem_nil, or_false] at hx
      rcases hx with rfl | rfl | rfl
      · omega
      · omega
      · exact absurd b3 hne⟩
    omega

/-- `C151_length_between` applies to these two files. -/
example : ∃ s', Bounded (flatFs [(['a'], []), thirty]) ∧
    FaithfulTo (flatFs [(['a'], []), thirty]) (flatContent [(['a'], []), thirty]) ∧
    createImage (fileEnv (flatFs [(['a'], []), thirty]) (fun _ => none)) 1 ⟨⟨[], []⟩, []⟩ = (.ok (), s') ∧
    TreeOf (flatFs [(['a'], []), thirty]).readDir (flatTree [(['a'], []), thirty]) := by
  have k1 := thirty_ok (.refl _)
  obtain ⟨s, h⟩ := flat_packs k1 []
  exact ⟨s, flat_bounded _, flat_faithful k1.distinct, h, flat_tree _⟩

/-- `C151_length_partial` applies to the three small files `a`, `b`, `c`: the image has 64 sectors. -/
example : ∃ s', createImage (fileEnv (flatFs (smallFiles ['a', 'b', 'c'])) (fun _ => none)) 1 ⟨⟨[], []⟩, []⟩ = (.ok (), s') ∧
    s'.dev.img.length = 131072 := by
  have d1 : DistinctNames (['a', 'b', 'c'].map (fun c => [c])) := by unfold DistinctNames; decide
  obtain ⟨s, h⟩ := flat_packs (smallFiles_ok d1 (by decide) (by decide)) []
  refine ⟨s, h, ?_⟩
  rw [C151_length_partial (flat_bounded _) (smallFiles_faithful d1) h (flat_tree _)]
  · decide
  · decide
  · decide

end Xdvdfs.Props
