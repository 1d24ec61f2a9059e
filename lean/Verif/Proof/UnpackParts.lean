import Verif.Props.Unpack

/-!
# Lemmas: unpacking on a host that fails, and into places that are not empty
-/

namespace Xdvdfs

open Spec

/-- What the listing of a packed image says about the tree. -/
structure ListedTree (r : RawImage) (tab : Region) (rd : Path → Res (List FileEntry)) (content : Path → Bytes)
    (listed : List (Str × DirEnt)) : Prop where
  entry : ∀ x ∈ listed, HostEntry x
  places : (listed.map entryRel).Nodup
  parents : ParentsFirst listed
  source : ∀ x ∈ listed, ∃ p e, EntryIn rd p e ∧ hostComps x.1 = p ∧ x.2.nameStr = e.name ∧
    x.2.node.dirent.isDirectory = e.isDir ∧ x.2.node.dirent.nameLen ≠ 0 ∧
    (e.isDir = false → r.extract x.2.node.dirent = .ok (content (p ++ [e.name])))
  all : ∀ p e, EntryIn rd p e → ∃ x ∈ listed, hostComps x.1 = p ∧ x.2.nameStr = e.name ∧
    x.2.node.dirent.isDirectory = e.isDir

theorem listedTree {r : RawImage} {rd : Path → Res (List FileEntry)} {content : Path → Bytes} {tab : Region}
    (hl : ListsFrom r.dev tab rd content) (hd : AllDistinct rd) (hn : ∀ p e, EntryIn rd p e → HostName e.name) :
    ∃ n listed, (∀ fuel, n < fuel → fileTree r.dev tab fuel = .ok listed) ∧ ListedTree r tab rd content listed := by
  obtain ⟨all, a1, a2, n, listed, a3, a4⟩ := hl
  have hfuel := a3 (n + 1) (by omega)
  have hent : ∀ x ∈ listed, ∃ p e, EntryIn rd p e ∧ x.1 = slashPath p ∧ x.2.nameStr = e.name ∧
      x.2.node.dirent.isDirectory = e.isDir ∧
      (e.isDir = false → readDataAll r.dev x.2.node.dirent = .ok (content (p ++ [e.name]))) := by
    intro x hx
    have : direntKey r.dev x ∈ all.map (entryKey content) := a4.mem_iff.1 (List.mem_map.2 ⟨x, hx, rfl⟩)
    obtain ⟨⟨p, e⟩, hm, hk⟩ := List.mem_map.1 this
    simp only [entryKey, direntKey, Prod.mk.injEq] at hk
    obtain ⟨k1, k2, k3, k4⟩ := hk
    refine ⟨p, e, (a2 p e).1 hm, k1.symm, k2.symm, k3.symm, fun hfile => ?_⟩
    rw [← k3, hfile] at k4
    simp only [Bool.false_eq_true, if_false, Option.some.injEq, Prod.mk.injEq] at k4
    exact k4.2.symm
  have hHE : ∀ x ∈ listed, HostEntry x := by
    intro x hx
    obtain ⟨p, e, he, h1, h2, _⟩ := hent x hx
    have hpn := dir_hostNames hn he.1
    refine ⟨by rw [h2]; exact hn p e he, ?_, ?_⟩
    · rw [h1, hostComps_slashPath hpn]
      exact fun c hc => ⟨(hpn c hc).2.2.2.1, (hpn c hc).2.2.2.2⟩
    · rw [h1]
      intro hm
      obtain ⟨s, hs, hm⟩ := slashPath_mem (by decide) hm
      exact (hpn s hs).2.2.1 hm
  refine ⟨n, listed, a3, hHE, ?_, fileTree_parents hfuel, ?_, ?_⟩
  · have h1 : (listed.map (fun x => (x.1, x.2.nameStr))).Perm (all.map (fun y => (slashPath y.1, y.2.name))) := by
      have := a4.map (fun k => (k.1, k.2.1))
      simpa [List.map_map, Function.comp_def, direntKey, entryKey] using this
    have h2 : ((all.map (fun y => (slashPath y.1, y.2.name))).map (fun k => hostComps k.1 ++ [k.2])).Nodup := by
      rw [List.map_map]
      refine List.Pairwise.map _ ?_ (List.Pairwise.and_mem.1 a1)
      rintro ⟨p, e⟩ ⟨q, f⟩ ⟨hm1, hm2, hne⟩ heq
      have he1 := (a2 p e).1 hm1
      have he2 := (a2 q f).1 hm2
      simp only [Function.comp_apply] at heq
      rw [hostComps_slashPath (dir_hostNames hn he1.1), hostComps_slashPath (dir_hostNames hn he2.1)] at heq
      obtain ⟨e1, e2⟩ := List.append_inj' heq rfl
      simp only [List.cons.injEq, and_true] at e2
      subst e1
      obtain ⟨hp, l, hl, hel⟩ := he1
      obtain ⟨_, l', hl', hfl⟩ := he2
      rw [hl] at hl'; cases hl'
      have := distinct_unique (hd p l hp hl) hel hfl (by rw [e2]; exact rfl)
      exact hne (by rw [this])
    have h3 := (h1.map (fun k => hostComps k.1 ++ [k.2])).nodup_iff.2 h2
    rw [List.map_map] at h3
    exact h3
  · intro x hx
    obtain ⟨p, e, he, h1, h2, h3, h4⟩ := hent x hx
    refine ⟨p, e, he, by rw [h1, hostComps_slashPath (dir_hostNames hn he.1)], h2, h3, ?_, fun hf => extract_ok (h4 hf)⟩
    intro e0
    have := fileTree_named hfuel x hx
    rw [e0] at this
    have hx0 : x.2.name = [] := List.eq_nil_of_length_eq_zero this
    exact (hHE x hx).name.1 (by simp [DirEnt.nameStr, hx0, decodeName])
  · intro p e he
    have : entryKey content (p, e) ∈ listed.map (direntKey r.dev) :=
      a4.mem_iff.2 (List.mem_map.2 ⟨(p, e), (a2 p e).2 he, rfl⟩)
    obtain ⟨x, hm, hk⟩ := List.mem_map.1 this
    simp only [entryKey, direntKey, Prod.mk.injEq] at hk
    obtain ⟨k1, k2, k3, k4⟩ := hk
    exact ⟨x, hm, by rw [k1, hostComps_slashPath (dir_hostNames hn he.1)], k2, k3⟩

theorem ListedTree.rel {r : RawImage} {tab : Region} {rd : Path → Res (List FileEntry)} {content : Path → Bytes}
    {listed : List (Str × DirEnt)} {x : Str × DirEnt} {p : Path} {n : Str}
    (h1 : hostComps x.1 = p) (h2 : x.2.nameStr = n) : entryRel x = p ++ [n] := by
  unfold entryRel; rw [h1, h2]

/-! ## What a run changes, whatever the host refuses -/

/-- The changes made by copying out entries: directories that were missing, and files with a part of their content. -/
def EntryChanges (h : Host) (dest : Str) (r : RawImage) (B : List (Str × DirEnt)) (fs fs' : HostFs) : Prop :=
  ∀ q, fs' q = fs q ∨
    (fs q = none ∧ fs' q = some .dir ∧ (OnTheWay h dest q ∨
      (∃ x ∈ B, ∃ pre, pre <+: hostComps x.1 ∧ pre ≠ [] ∧ q = placeOf h dest ++ pre) ∨
      ∃ x ∈ B, x.2.node.dirent.isDirectory = true ∧ q = placeOf h dest ++ entryRel x)) ∨
    (fs q ≠ some .dir ∧ ∃ x ∈ B, x.2.node.dirent.isDirectory = false ∧ q = placeOf h dest ++ entryRel x ∧
      ∃ b, fs' q = some (.file b) ∧ ∀ c, r.extract x.2.node.dirent = .ok c → b <+: c)

theorem EntryChanges.refl (h : Host) (dest : Str) (r : RawImage) (B : List (Str × DirEnt)) (fs : HostFs) :
    EntryChanges h dest r B fs fs := fun _ => Or.inl rfl

theorem EntryChanges.trans {h : Host} {dest : Str} {r : RawImage} {B : List (Str × DirEnt)} {a b c : HostFs}
    (h1 : EntryChanges h dest r B a b) (h2 : EntryChanges h dest r B b c) : EntryChanges h dest r B a c := by
  intro q
  rcases h2 q with e2 | ⟨e2, e3, e4⟩ | ⟨e2, x, hx, e3, e4, b', e5, e6⟩
  · rw [e2]; exact h1 q
  · rcases h1 q with e1 | ⟨_, e1, _⟩ | ⟨_, _, _, _, _, b', e1, _⟩
    · rw [← e1]; exact Or.inr (Or.inl ⟨e2, e3, e4⟩)
    · rw [e2] at e1; cases e1
    · rw [e2] at e1; cases e1
  · rcases h1 q with e1 | ⟨_, e1, _⟩ | ⟨e1, _⟩
    · rw [e1] at e2; exact Or.inr (Or.inr ⟨e2, x, hx, e3, e4, b', e5, e6⟩)
    · exact absurd e1 e2
    · exact Or.inr (Or.inr ⟨e1, x, hx, e3, e4, b', e5, e6⟩)

theorem EntryChanges.mono {h : Host} {dest : Str} {r : RawImage} {B C : List (Str × DirEnt)} {a b : HostFs}
    (h1 : EntryChanges h dest r B a b) (hsub : ∀ x ∈ B, x ∈ C) : EntryChanges h dest r C a b := by
  intro q
  rcases h1 q with e | ⟨e1, e2, e3 | ⟨x, hx, e3⟩ | ⟨x, hx, e3⟩⟩ | ⟨e1, x, hx, e2⟩
  · exact Or.inl e
  · exact Or.inr (Or.inl ⟨e1, e2, Or.inl e3⟩)
  · exact Or.inr (Or.inl ⟨e1, e2, Or.inr (Or.inl ⟨x, hsub x hx, e3⟩)⟩)
  · exact Or.inr (Or.inl ⟨e1, e2, Or.inr (Or.inr ⟨x, hsub x hx, e3⟩)⟩)
  · exact Or.inr (Or.inr ⟨e1, x, hsub x hx, e2⟩)

theorem writeFile_parts {h : Host} {path : Str} {data : Res Bytes} {fs fs' : HostFs} {res}
    (hc : h.writeFile path data fs = (res, fs')) :
    (fs' = fs ∧ res ≠ .ok ()) ∨ (fs (placeOf h path) ≠ some .dir ∧
      ∃ b, fs' = fs.set (placeOf h path) (.file b) ∧ (∀ c, data = .ok c → b <+: c) ∧ (res = .ok () → data = .ok b)) := by
  unfold Host.writeFile at hc
  split at hc
  · next p hp =>
    rw [resolve_place hp] at hc
    split at hc
    · cases hc; exact Or.inl ⟨rfl, nofun⟩
    · next hn =>
      simp only [not_or] at hn
      split at hc
      · cases hc; exact Or.inl ⟨rfl, nofun⟩
      · split at hc
        · next b => cases hc; exact Or.inr ⟨hn.1, _, rfl, fun c hc => by cases hc; exact List.take_prefix _ _, nofun⟩
        · cases hc; exact Or.inr ⟨hn.1, _, rfl, fun c _ => List.nil_prefix, nofun⟩
      · split at hc
        · next b => cases hc; exact Or.inr ⟨hn.1, _, rfl, fun c hc => by cases hc; exact List.prefix_refl _, fun _ => rfl⟩
        · cases hc; exact Or.inr ⟨hn.1, _, rfl, nofun, nofun⟩
        · cases hc; exact Or.inr ⟨hn.1, _, rfl, nofun, nofun⟩
        · cases hc; exact Or.inr ⟨hn.1, _, rfl, nofun, nofun⟩
  · cases hc; exact Or.inl ⟨rfl, nofun⟩
  · cases hc; exact Or.inl ⟨rfl, nofun⟩
  · cases hc; exact Or.inl ⟨rfl, nofun⟩

theorem entryDir_onTheWay {h : Host} {dest : Str} {x : Str × DirEnt} (hx : HostEntry x) {q : HostPath}
    (hq : OnTheWay h (entryDir dest x) q) : OnTheWay h dest q ∨
      ∃ pre, pre <+: hostComps x.1 ∧ pre ≠ [] ∧ q = placeOf h dest ++ pre := by
  obtain ⟨k, rfl⟩ := hq
  rw [entryDir_comps, entryDir_start]
  rcases take_append_cases (hostComps dest) (hostComps x.1) k with ⟨j, e⟩ | ⟨j, e⟩
  · rw [e]; exact Or.inl ⟨j, rfl⟩
  · rw [e, stepsFrom_append, steps_plain (fun c hc => hx.dir c (List.mem_of_mem_take hc))]
    by_cases hp : (hostComps x.1).take j = []
    · rw [hp, List.append_nil]; exact Or.inl (way_place h dest)
    · exact Or.inr ⟨_, List.take_prefix _ _, hp, rfl⟩

/-- What one entry changes, and what is there when it was copied out. -/
theorem copyoutEntry_parts {h : Host} {r : RawImage} {dest : Str} {x : Str × DirEnt} {fs fs' : HostFs} {res}
    (hrun : copyoutEntry h r dest x fs = (res, fs')) (hx : HostEntry x) (hlen : x.2.node.dirent.nameLen ≠ 0) :
    EntryChanges h dest r [x] fs fs' ∧ (res = .ok () →
      if x.2.node.dirent.isDirectory then fs' (placeOf h dest ++ entryRel x) = some .dir
      else ∃ b, r.extract x.2.node.dirent = .ok b ∧ fs' (placeOf h dest ++ entryRel x) = some (.file b)) := by
  unfold copyoutEntry at hrun
  simp only at hrun
  cases hc : h.createDirAll (entryDir dest x) fs with
  | mk r1 fs1 =>
  have h1 : EntryChanges h dest r [x] fs fs1 := by
    intro q
    rcases createDirAll_changes hc q with e | ⟨e1, e2, e3⟩
    · exact Or.inl e
    · refine Or.inr (Or.inl ⟨e2, e3, ?_⟩)
      rcases entryDir_onTheWay hx e1 with g | g
      · exact Or.inl g
      · exact Or.inr (Or.inl ⟨x, by simp, g⟩)
  rw [hc] at hrun
  cases r1 with
  | err e => simp only at hrun; cases hrun; exact ⟨h1, nofun⟩
  | panic => simp only at hrun; cases hrun; exact ⟨h1, nofun⟩
  | hang => simp only at hrun; cases hrun; exact ⟨h1, nofun⟩
  | ok u =>
    simp only at hrun
    split at hrun
    · next hdir =>
      rcases createDir_changes hrun with ⟨e1, e2⟩ | ⟨e1, e2, e3, e4⟩
      · rw [e1]; exact ⟨h1, fun e => absurd e e2⟩
      · change fs1 (placeOf h (entryPath dest x)) = none at e2
        change fs' = fs1.set (placeOf h (entryPath dest x)) .dir at e4
        rw [hx.place h dest] at e2 e4
        refine ⟨EntryChanges.trans h1 ?_, fun _ => ?_⟩
        · intro q
          by_cases hq : q = placeOf h dest ++ entryRel x
          · refine Or.inr (Or.inl ⟨by rw [hq]; exact e2, by rw [e4, hq]; exact set_same _ _ _, Or.inr (Or.inr ⟨x, by simp, hdir, hq⟩)⟩)
          · left; rw [e4]; exact set_other hq
        · rw [if_pos hdir, e4]; exact set_same _ _ _
    · next hdir =>
      rcases writeFile_parts hrun with ⟨e1, e2⟩ | ⟨e1, b, e2, e3, e4⟩
      · rw [e1]; exact ⟨h1, fun e => absurd e e2⟩
      · change fs1 (placeOf h (entryPath dest x)) ≠ some .dir at e1
        change fs' = fs1.set (placeOf h (entryPath dest x)) (.file b) at e2
        rw [hx.place h dest] at e1 e2
        refine ⟨EntryChanges.trans h1 ?_, fun hr => ?_⟩
        · intro q
          by_cases hq : q = placeOf h dest ++ entryRel x
          · exact Or.inr (Or.inr ⟨by rw [hq]; exact e1, x, by simp, by simpa using hdir, hq, b,
              by rw [e2, hq]; exact set_same _ _ _, e3⟩)
          · left; rw [e2]; exact set_other hq
        · rw [if_neg hdir]
          exact ⟨b, e4 hr, by rw [e2]; exact set_same _ _ _⟩

/-- Nothing is ever removed. -/
theorem EntryChanges.none {h : Host} {dest : Str} {r : RawImage} {B : List (Str × DirEnt)} {a b : HostFs}
    (h1 : EntryChanges h dest r B a b) {q : HostPath} (hq : b q = none) : a q = none := by
  rcases h1 q with e | ⟨e, _⟩ | ⟨_, _, _, _, _, _, e, _⟩
  · rw [← e]; exact hq
  · exact e
  · rw [hq] at e; cases e

theorem EntryChanges.dir {h : Host} {dest : Str} {r : RawImage} {B : List (Str × DirEnt)} {a b : HostFs}
    (h1 : EntryChanges h dest r B a b) {q : HostPath} (hq : b q ≠ some .dir) : a q ≠ some .dir := by
  rcases h1 q with e | ⟨e, _⟩ | ⟨e, _⟩
  · rw [← e]; exact hq
  · rw [e]; simp
  · exact e

/-- An entry that was copied out did not exist, if it is a directory, and was no directory, if it is a file. -/
theorem copyoutEntry_free {h : Host} {r : RawImage} {dest : Str} {x : Str × DirEnt} {fs fs' : HostFs}
    (hrun : copyoutEntry h r dest x fs = (.ok (), fs')) (hx : HostEntry x) (hlen : x.2.node.dirent.nameLen ≠ 0) :
    FreeFor h dest fs x := by
  unfold copyoutEntry at hrun
  simp only at hrun
  cases hc : h.createDirAll (entryDir dest x) fs with
  | mk r1 fs1 =>
  have hch := createDirAll_changes hc
  rw [hc] at hrun
  unfold FreeFor
  cases r1 with
  | err e => simp only at hrun; cases hrun
  | panic => simp only at hrun; cases hrun
  | hang => simp only at hrun; cases hrun
  | ok u =>
    simp only at hrun
    split at hrun
    · next hdir =>
      rw [if_pos hdir]
      rcases createDir_changes hrun with ⟨e1, e2⟩ | ⟨e1, e2, e3, e4⟩
      · exact absurd rfl e2
      · change fs1 (placeOf h (entryPath dest x)) = none at e2
        rw [hx.place h dest] at e2
        rcases hch (placeOf h dest ++ entryRel x) with e | ⟨_, e, _⟩
        · rw [← e]; exact e2
        · exact e
    · next hdir =>
      rw [if_neg hdir]
      rcases writeFile_parts hrun with ⟨e1, e2⟩ | ⟨e1, b, e2, e3, e4⟩
      · exact absurd rfl e2
      · change fs1 (placeOf h (entryPath dest x)) ≠ some .dir at e1
        rw [hx.place h dest] at e1
        rcases hch (placeOf h dest ++ entryRel x) with e | ⟨_, e, _⟩
        · rw [← e]; exact e1
        · rw [e]; simp

theorem copyoutLoop_free {h : Host} {r : RawImage} {dest : Str} : ∀ (B : List (Str × DirEnt)) (fs : HostFs) {fs'},
    copyoutLoop h r dest B fs = (.ok (), fs') → (∀ x ∈ B, HostEntry x ∧ x.2.node.dirent.nameLen ≠ 0) →
    ∀ x ∈ B, FreeFor h dest fs x := by
  intro B
  induction B with
  | nil => intro fs fs' _ _ x hx; simp at hx
  | cons x xs ih =>
    intro fs fs' hrun hB y hy
    simp only [copyoutLoop] at hrun
    obtain ⟨hx, hlen⟩ := hB x (by simp)
    cases hc : copyoutEntry h r dest x fs with
    | mk r1 fs1 =>
    obtain ⟨h1, h2⟩ := copyoutEntry_parts hc hx hlen
    rw [hc] at hrun
    cases r1 with
    | err e => simp only at hrun; cases hrun
    | panic => simp only at hrun; cases hrun
    | hang => simp only at hrun; cases hrun
    | ok u =>
      simp only at hrun
      rcases List.mem_cons.1 hy with rfl | hy
      · exact copyoutEntry_free hc hx hlen
      · have := ih fs1 hrun (fun y hy => hB y (by simp [hy])) y hy
        unfold FreeFor at this ⊢
        split at this
        · next hd => rw [if_pos hd]; exact h1.none this
        · next hd => rw [if_neg hd]; exact h1.dir this

theorem copyoutLoop_parts {h : Host} {r : RawImage} {dest : Str} : ∀ (B : List (Str × DirEnt)) (fs : HostFs) {res fs'},
    copyoutLoop h r dest B fs = (res, fs') → (∀ x ∈ B, HostEntry x ∧ x.2.node.dirent.nameLen ≠ 0) →
    EntryChanges h dest r B fs fs' ∧ (res = .ok () → (B.map entryRel).Nodup → ∀ x ∈ B,
      if x.2.node.dirent.isDirectory then fs' (placeOf h dest ++ entryRel x) = some .dir
      else ∃ b, r.extract x.2.node.dirent = .ok b ∧ fs' (placeOf h dest ++ entryRel x) = some (.file b)) := by
  intro B
  induction B with
  | nil => intro fs res fs' hrun _; cases hrun; exact ⟨EntryChanges.refl _ _ _ _ _, by simp⟩
  | cons x xs ih =>
    intro fs res fs' hrun hB
    simp only [copyoutLoop] at hrun
    obtain ⟨hx, hlen⟩ := hB x (by simp)
    cases hc : copyoutEntry h r dest x fs with
    | mk r1 fs1 =>
    obtain ⟨h1, h2⟩ := copyoutEntry_parts hc hx hlen
    have h1' : EntryChanges h dest r (x :: xs) fs fs1 := h1.mono (by simp)
    rw [hc] at hrun
    cases r1 with
    | err e => simp only at hrun; cases hrun; exact ⟨h1', nofun⟩
    | panic => simp only at hrun; cases hrun; exact ⟨h1', nofun⟩
    | hang => simp only at hrun; cases hrun; exact ⟨h1', nofun⟩
    | ok u =>
      simp only at hrun
      obtain ⟨g1, g2⟩ := ih fs1 hrun (fun y hy => hB y (by simp [hy]))
      refine ⟨h1'.trans (g1.mono (fun y hy => by simp [hy])), fun hr hnd y hy => ?_⟩
      rw [List.map_cons, List.nodup_cons] at hnd
      rcases List.mem_cons.1 hy with rfl | hy
      · have hkeep : fs' (placeOf h dest ++ entryRel y) = fs1 (placeOf h dest ++ entryRel y) := by
          rcases g1 (placeOf h dest ++ entryRel y) with e | ⟨e, _⟩ | ⟨e, z, hz, _, e2, _⟩
          · exact e
          · have := h2 rfl
            split at this
            · rw [this] at e; cases e
            · obtain ⟨b, _, hb⟩ := this; rw [hb] at e; cases e
          · exact absurd (List.mem_map.2 ⟨z, hz, (List.append_cancel_left e2).symm⟩) hnd.1
        rw [hkeep]
        exact h2 rfl
      · exact g2 hr hnd.2 y hy

end Xdvdfs
