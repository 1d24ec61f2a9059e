import Verif.Proof.Unpack
import Verif.Proof.Repack

/-!
# Listing a subdirectory of a packed image
-/

namespace Xdvdfs
open Spec

theorem ListsTree.from {dev : Dev} {tab : Region} {rd : Path → Res (List FileEntry)} {content : Path → Bytes}
    (h : ListsTree dev tab rd content) : ListsFrom dev tab rd content := by
  obtain ⟨all, h1, h2, listed, h3, h4⟩ := h
  exact ⟨all, h1, h2, _, listed, h3, h4⟩

theorem ListsFrom.agree {a b : Dev} {root : Region} {rd : Path → Res (List FileEntry)}
    {content : Path → Bytes} (hl : ListsFrom b root rd content) (h : AgreeLow a b) : ListsFrom a root rd content := by
  obtain ⟨all, h1, h2, n, listed, h3, h4⟩ := hl
  refine ⟨all, h1, h2, n, listed, fun fuel hf => by rw [h.fileTree]; exact h3 fuel hf, ?_⟩
  have : listed.map (direntKey a) = listed.map (direntKey b) := by
    apply List.map_congr_left
    intro x _
    simp only [direntKey, h.readDataAll]
  rw [this]; exact h4

/-! ## Listings under a prefix -/

theorem subdirsOf_shift (pre parent : Str) (ch : List DirEnt) :
    subdirsOf (pre ++ parent) ch = (subdirsOf parent ch).map (fun x => (pre ++ x.1, x.2)) := by
  unfold subdirsOf
  rw [List.map_filterMap]
  congr 1
  funext c
  cases c.node.dirent.direntTable <;> simp

theorem fileTreeLoop_shift (dev : Dev) (wf : Nat) (pre : Str) : ∀ (fuel : Nat) (stack : List (Str × Region))
    (acc : List (Str × DirEnt)),
    fileTreeLoop dev wf fuel (stack.map (fun x => (pre ++ x.1, x.2))) (acc.map (fun x => (pre ++ x.1, x.2))) =
      (fileTreeLoop dev wf fuel stack acc).bind (fun l => .ok (l.map (fun x => (pre ++ x.1, x.2)))) := by
  intro fuel
  induction fuel with
  | zero =>
    intro stack acc
    cases stack with
    | nil => simp [fileTreeLoop, Res.bind]
    | cons s ss => rfl
  | succ fuel ih =>
    intro stack acc
    cases stack with
    | nil => simp [fileTreeLoop, Res.bind]
    | cons s ss =>
      obtain ⟨parent, tab⟩ := s
      simp only [List.map_cons, fileTreeLoop]
      cases walkDirentTree dev tab wf with
      | ok ch =>
        simp only [Res.ok_bind]
        rw [← ih]
        congr 1
        · rw [subdirsOf_shift]; simp
        · simp
      | err e => rfl
      | panic => rfl
      | hang => rfl

/-! ## The tree below a directory -/

theorem dirOf_below {rd : Path → Res (List FileEntry)} {p : Path} (hp : DirOf rd p) {q : Path} :
    DirOf (fun q => rd (p ++ q)) q ↔ DirOf rd (p ++ q) := by
  constructor
  · intro h
    induction h with
    | root => simpa using hp
    | @sub q l e h1 h2 h3 h4 ih =>
      rw [← List.append_assoc]
      exact .sub ih h2 h3 h4
  · intro h
    generalize hv : p ++ q = v at h
    induction h generalizing q with
    | root =>
      have := List.append_eq_nil_iff.1 hv
      rw [this.2]; exact .root
    | @sub v l e h1 h2 h3 h4 ih =>
      rcases List.eq_nil_or_concat q with rfl | ⟨q', c, rfl⟩
      · exact .root
      · rw [List.concat_eq_append, ← List.append_assoc] at hv
        obtain ⟨e1, e2⟩ := List.append_inj' hv rfl
        simp only [List.cons.injEq, and_true] at e2
        subst e1 e2
        rw [List.concat_eq_append]
        exact .sub (ih rfl) h2 h3 h4

theorem entryIn_below {rd : Path → Res (List FileEntry)} {p : Path} (hp : DirOf rd p) {q : Path} {e : FileEntry} :
    EntryIn (fun q => rd (p ++ q)) q e ↔ EntryIn rd (p ++ q) e := by
  unfold EntryIn
  rw [dirOf_below hp]

theorem allDistinct_below {rd : Path → Res (List FileEntry)} {p : Path} (hp : DirOf rd p) (h : AllDistinct rd) :
    AllDistinct (fun q => rd (p ++ q)) := by
  intro q l hq hl
  exact h (p ++ q) l ((dirOf_below hp).1 hq) hl

theorem slashPath_append (p q : Path) : slashPath (p ++ q) = slashPath p ++ slashPath q := by
  simp [slashPath]

theorem flatMap_congr' {α β : Type} {f g : α → List β} : ∀ {l : List α}, (∀ x ∈ l, f x = g x) →
    l.flatMap f = l.flatMap g := by
  intro l
  induction l with
  | nil => intro _; rfl
  | cons a l ih =>
    intro h
    rw [List.flatMap_cons, List.flatMap_cons, h a (by simp), ih (fun x hx => h x (by simp [hx]))]

/-- The entries of the directory at `p`, with paths relative to a prefix of length `n`. -/
def entriesAt (rd : Path → Res (List FileEntry)) (n : Nat) (v : Path) : List (Path × FileEntry) :=
  match rd v with
  | .ok l => l.map (fun e => (v.drop n, e))
  | _ => []

/-- The listing from a directory of the image is the tree below that directory. -/
theorem Img.listsBelow {rd : ReadDir} {content : Path → Bytes} {dev : Dev} {M : PathMap TabWriter}
    {Loc : Path → Listing → Prop} (h : Img rd content dev M Loc) (hdist : AllDistinct rd) {Dp : List Path}
    (hn : Dp.Nodup) (hD : ∀ q, q ∈ Dp ↔ DirOf rd q) {p : Path} {l : Listing} (hl : Loc p l)
    (hdir : l.isDir = true) :
    ListsFrom dev (regionOf l) (fun q => rd (p ++ q)) (fun q => content (p ++ q)) := by
  have hp : DirOf rd p := (h.dirs p l hl hdir).1
  let all := (under Dp p).flatMap (entriesAt rd p.length)
  have hall : ∀ q e, (q, e) ∈ all ↔ EntryIn (fun q => rd (p ++ q)) q e := by
    intro q e
    rw [entryIn_below hp]
    simp only [all, List.mem_flatMap, mem_under]
    constructor
    · rintro ⟨v, ⟨h1, t, rfl⟩, h3⟩
      unfold entriesAt at h3
      split at h3
      · next l hv =>
        obtain ⟨e', he', h4⟩ := List.mem_map.1 h3
        rw [List.drop_left'] at h4
        · cases h4
          exact ⟨(hD _).1 h1, l, hv, he'⟩
        · rfl
      · cases h3
    · rintro ⟨h1, l, h2, h3⟩
      refine ⟨p ++ q, ⟨(hD _).2 h1, q, rfl⟩, ?_⟩
      unfold entriesAt
      rw [h2]
      exact List.mem_map.2 ⟨e, h3, by rw [List.drop_left' rfl]⟩
  have hnd : all.Nodup := by
    simp only [all]
    rw [List.nodup_iff_pairwise_ne, List.pairwise_flatMap]
    constructor
    · intro v hv
      unfold entriesAt
      split
      · next l' hl' =>
        rw [List.pairwise_map]
        have := hdist v l' ((hD v).1 (mem_under.1 hv).1) hl'
        unfold DistinctNames at this
        rw [List.pairwise_map] at this
        refine this.imp ?_
        intro a b hab he
        cases he
        exact hab rfl
      · exact List.Pairwise.nil
    · refine List.Pairwise.imp_of_mem ?_ (List.nodup_iff_pairwise_ne.1 (hn.filter _))
      intro a b ha hb hab x hx y hy hxy
      subst hxy
      obtain ⟨_, s, rfl⟩ := mem_under.1 ha
      obtain ⟨_, t, rfl⟩ := mem_under.1 hb
      have key : ∀ {u : Path}, x ∈ entriesAt rd p.length (p ++ u) → x.1 = u := by
        intro u hu
        unfold entriesAt at hu
        split at hu
        · obtain ⟨_, _, rfl⟩ := List.mem_map.1 hu
          exact List.drop_left' rfl
        · cases hu
      exact hab (by rw [← key hx, ← key hy])
  refine ⟨all, hnd, hall, ?_⟩
  -- enough fuel for every directory
  let wf := (Dp.map (fun v => (entriesAt rd 0 v).length)).sum + 1 + (under Dp p).length
  have hwf : ∀ v lst, DirOf rd v → rd v = .ok lst → lst.length < wf := by
    intro v lst hv hlst
    have hm := (hD v).2 hv
    have : ∀ (L : List Path), v ∈ L → lst.length ≤ (L.map (fun v => (entriesAt rd 0 v).length)).sum := by
      intro L
      induction L with
      | nil => intro h; cases h
      | cons a L ih =>
        intro h
        rw [List.map_cons, List.sum_cons]
        rcases List.mem_cons.1 h with rfl | h
        · have : (entriesAt rd 0 v).length = lst.length := by unfold entriesAt; rw [hlst]; simp
          omega
        · have := ih h; omega
    have := this Dp hm
    show lst.length < _ + 1 + _
    omega
  obtain ⟨L, h1, h2⟩ := h.tree_loop hdist hn hD (wf := wf) hwf _ [(p, l)] []
    (by intro x hx; rw [List.mem_singleton] at hx; subst hx; exact ⟨hl, hdir⟩) rfl
  simp only [List.map_cons, List.map_nil, List.flatMap_cons, List.flatMap_nil, List.append_nil,
    List.reverse_nil, List.nil_append] at h1 h2
  have h3 := h1 wf (by show _ ≤ _ + 1 + _; omega)
  have h4 := fileTreeLoop_shift dev wf (slashPath p) wf [([], regionOf l)] []
  simp only [List.map_cons, List.map_nil, List.append_nil] at h4
  rw [h3] at h4
  cases hr : fileTreeLoop dev wf wf [([], regionOf l)] [] with
  | ok listed =>
    rw [hr] at h4
    simp only [Res.bind, Res.ok.injEq] at h4
    refine ⟨wf, listed, ?_, ?_⟩
    · intro fuel hf
      unfold fileTree
      rw [← hr]
      exact fileTreeLoop_mono (by rw [hr]; simp) fuel fuel (by omega) (by omega)
    · rw [h4, List.map_map] at h2
      have e1 : (listed.map (direntKey dev ∘ fun x => (slashPath p ++ x.1, x.2))) =
          (listed.map (direntKey dev)).map (fun k => (slashPath p ++ k.1, k.2)) := by
        rw [List.map_map]; rfl
      have e2 : (under Dp p).flatMap (keysOf content rd) =
          (all.map (entryKey (fun q => content (p ++ q)))).map (fun k => (slashPath p ++ k.1, k.2)) := by
        simp only [all]
        rw [List.map_map, List.map_flatMap]
        apply flatMap_congr'
        intro v hv
        obtain ⟨_, t, rfl⟩ := mem_under.1 hv
        unfold keysOf entriesAt
        cases rd (p ++ t) with
        | ok lst =>
          simp only [List.map_map]
          apply List.map_congr_left
          intro e _
          simp only [Function.comp_apply, entryKey, List.drop_left' rfl, slashPath_append, List.append_assoc]
        | err e => rfl
        | panic => rfl
        | hang => rfl
      rw [e1, e2] at h2
      have := h2.map (fun k => (k.1.drop (slashPath p).length, k.2))
      have hid : ((fun k : Str × Str × Bool × Option (Nat × Res Bytes) => (k.1.drop (slashPath p).length, k.2)) ∘
          fun k => (slashPath p ++ k.1, k.2)) = id := by
        funext k
        simp [List.drop_left']
      rw [List.map_map (l := listed.map (direntKey dev)),
        List.map_map (l := all.map (entryKey (fun q => content (p ++ q)))), hid, List.map_id, List.map_id] at this
      exact this
  | err e => rw [hr] at h4; cases h4
  | panic => rw [hr] at h4; cases h4
  | hang => rw [hr] at h4; cases h4

/-! ## Path lookup on agreeing devices -/

theorem AgreeLow.findLoop {a b : Dev} (h : AgreeLow a b) (tab : Region) (name : Str) : ∀ (fuel off : Nat),
    off + 2 ^ 16 < 2 ^ 44 → Xdvdfs.findLoop a tab name fuel off = Xdvdfs.findLoop b tab name fuel off := by
  intro fuel
  induction fuel with
  | zero => intro off _; rfl
  | succ fuel ih =>
    intro off ho
    simp only [Xdvdfs.findLoop]
    rw [h.readDirent ho]
    congr 1
    funext d
    congr 1
    funext d
    congr 1
    funext nx
    cases nx with
    | none => rfl
    | some nx =>
      simp only
      split
      · rfl
      · cases hoff : tab.offset (4 * nx.toNat) with
        | ok off' => exact ih off' (offset_low hoff)
        | err e => rfl
        | panic => rfl
        | hang => rfl

theorem AgreeLow.findDirent {a b : Dev} (h : AgreeLow a b) (tab : Region) (name : Str) (fuel : Nat) :
    Xdvdfs.findDirent a tab name fuel = Xdvdfs.findDirent b tab name fuel := by
  unfold Xdvdfs.findDirent
  split
  · rfl
  · cases ho : tab.offset 0 with
    | ok off => exact h.findLoop tab name fuel off (offset_low ho)
    | err e => rfl
    | panic => rfl
    | hang => rfl

theorem AgreeLow.walkSegments {a b : Dev} (h : AgreeLow a b) (fuel : Nat) : ∀ (segs : List Str) (tab : Region),
    Xdvdfs.walkSegments a fuel tab segs = Xdvdfs.walkSegments b fuel tab segs := by
  intro segs
  induction segs with
  | nil => intro tab; rfl
  | cons s ss ih =>
    intro tab
    simp only [Xdvdfs.walkSegments]
    rw [h.findDirent]
    congr 1
    funext d
    split
    · rfl
    · congr 1
      funext t
      exact ih t

theorem AgreeLow.walkPath {a b : Dev} (h : AgreeLow a b) (tab : Region) (path : Str) (fuel : Nat) :
    Xdvdfs.walkPath a tab path fuel = Xdvdfs.walkPath b tab path fuel := by
  unfold Xdvdfs.walkPath
  split
  · rfl
  · exact h.walkSegments _ _ _

end Xdvdfs
