import Verif.Model.Checksum
import Verif.Spec.Checksum
import Verif.Proof.CopyOut

/-!
# Lemmas about the checksum input
-/

namespace Xdvdfs
open Spec

theorem utf8Bytes_inj {s t : Str} (h : utf8Bytes s = utf8Bytes t) : s = t := by
  apply String.ofList_injective
  rw [← String.toByteArray_inj]
  simp only [String.toByteArray_ofList, List.utf8Encode]
  unfold utf8Bytes at h
  rw [h]

theorem cmpBytes_eq {a b : Bytes} : cmpBytes a b = .eq ↔ a = b := by
  induction a generalizing b with
  | nil => cases b <;> simp [cmpBytes]
  | cons x xs ih =>
    cases b with
    | nil => simp [cmpBytes]
    | cons y ys =>
      simp only [cmpBytes]
      by_cases h1 : x < y
      · rw [if_pos h1]
        simp only [List.cons.injEq, reduceCtorEq, false_iff, not_and]
        rintro rfl
        exact absurd h1 (UInt8.lt_irrefl x)
      · rw [if_neg h1]
        by_cases h2 : y < x
        · rw [if_pos h2]
          simp only [List.cons.injEq, reduceCtorEq, false_iff, not_and]
          rintro rfl
          exact absurd h2 (UInt8.lt_irrefl x)
        · rw [if_neg h2, ih]
          have : x = y := by
            apply UInt8.le_antisymm
            · exact UInt8.not_lt.1 h2
            · exact UInt8.not_lt.1 h1
          simp [this]

theorem cmpBytes_swap {a b : Bytes} : cmpBytes a b = .gt ↔ cmpBytes b a = .lt := by
  induction a generalizing b with
  | nil => cases b <;> simp [cmpBytes]
  | cons x xs ih =>
    cases b with
    | nil => simp [cmpBytes]
    | cons y ys =>
      simp only [cmpBytes]
      by_cases h1 : x < y
      · rw [if_pos h1, if_neg (UInt8.lt_asymm h1), if_pos h1]; simp
      · by_cases h2 : y < x
        · rw [if_neg h1, if_pos h2, if_pos h2]; simp
        · rw [if_neg h1, if_neg h2, if_neg h2, if_neg h1, ih]

theorem cmpBytes_trans {a b c : Bytes} (h1 : cmpBytes a b = .lt) (h2 : cmpBytes b c = .lt) : cmpBytes a c = .lt := by
  induction a generalizing b c with
  | nil =>
    cases c with
    | nil => cases b <;> simp [cmpBytes] at h1 h2
    | cons z zs => rfl
  | cons x xs ih =>
    cases b with
    | nil => simp [cmpBytes] at h1
    | cons y ys =>
      cases c with
      | nil => simp [cmpBytes] at h2
      | cons z zs =>
        simp only [cmpBytes] at h1 h2 ⊢
        simp only [UInt8.lt_iff_toNat_lt] at *
        by_cases hxy : x.toNat < y.toNat
        · by_cases hyz : y.toNat < z.toNat
          · rw [if_pos (by omega)]
          · rw [if_neg hyz] at h2
            by_cases hzy : z.toNat < y.toNat
            · rw [if_pos hzy] at h2; cases h2
            · rw [if_pos (by omega)]
        · rw [if_neg hxy] at h1
          by_cases hyx : y.toNat < x.toNat
          · rw [if_pos hyx] at h1; cases h1
          · rw [if_neg hyx] at h1
            by_cases hyz : y.toNat < z.toNat
            · rw [if_pos (by omega)]
            · rw [if_neg hyz] at h2
              by_cases hzy : z.toNat < y.toNat
              · rw [if_pos hzy] at h2; cases h2
              · rw [if_neg hzy] at h2
                rw [if_neg (by omega), if_neg (by omega)]
                exact ih h1 h2

/-- Strictly sorted by key. -/
def KeySorted (m : List (Bytes × α)) : Prop := m.Pairwise (fun a b => cmpBytes a.1 b.1 = .lt)

theorem bmapInsert_fresh {k : Bytes} {v : α} : ∀ {m : List (Bytes × α)}, (∀ x ∈ m, x.1 ≠ k) → KeySorted m →
    KeySorted (bmapInsert k v m) ∧ (bmapInsert k v m).Perm ((k, v) :: m) := by
  intro m
  induction m with
  | nil => intro _ _; exact ⟨by simp [KeySorted, bmapInsert], by simp [bmapInsert]⟩
  | cons y ys ih =>
    intro hk hs
    obtain ⟨k', v'⟩ := y
    have hs' := List.pairwise_cons.1 hs
    obtain ⟨ih1, ih2⟩ := ih (fun x hx => hk x (List.mem_cons_of_mem _ hx)) hs'.2
    simp only [bmapInsert]
    cases hc : cmpBytes k k' with
    | lt =>
      refine ⟨?_, List.Perm.refl _⟩
      refine List.pairwise_cons.2 ⟨?_, hs⟩
      intro x hx
      rcases List.mem_cons.1 hx with rfl | hx
      · exact hc
      · exact cmpBytes_trans hc (hs'.1 x hx)
    | eq => exact absurd (cmpBytes_eq.1 hc).symm (hk (k', v') (by simp))
    | gt =>
      simp only
      refine ⟨List.pairwise_cons.2 ⟨?_, ih1⟩, (ih2.cons _).trans (List.Perm.swap _ _ _)⟩
      intro x hx
      rcases List.mem_cons.1 (ih2.mem_iff.1 hx) with rfl | hx
      · exact cmpBytes_swap.1 hc
      · exact hs'.1 x hx

theorem checksumFold {tree : List (Str × DirEnt)} : ∀ {m : List (Bytes × DirEnt)}, KeySorted m →
    (∀ x ∈ m, ∀ y ∈ tree, x.1 ≠ utf8Bytes (listedPath y)) → (tree.map listedPath).Nodup →
    KeySorted (tree.foldl (fun m x => bmapInsert (utf8Bytes (listedPath x)) x.2 m) m) ∧
    (tree.foldl (fun m x => bmapInsert (utf8Bytes (listedPath x)) x.2 m) m).Perm
      (m ++ tree.map (fun x => (utf8Bytes (listedPath x), x.2))) := by
  induction tree with
  | nil => intro m h _ _; exact ⟨h, by simp⟩
  | cons y ys ih =>
    intro m hm hk hd
    rw [List.map_cons, List.nodup_cons] at hd
    obtain ⟨h1, h2⟩ := bmapInsert_fresh (v := y.2) (fun x hx => hk x hx y (by simp)) hm
    obtain ⟨g1, g2⟩ := ih h1 (by
      intro x hx z hz
      rcases List.mem_cons.1 (h2.mem_iff.1 hx) with rfl | hx
      · intro e
        exact hd.1 (by rw [utf8Bytes_inj e]; exact List.mem_map_of_mem hz)
      · exact hk x hx z (List.mem_cons_of_mem _ hz)) hd.2
    refine ⟨g1, g2.trans ?_⟩
    refine (h2.append_right _).trans ?_
    rw [List.map_cons]
    exact (List.perm_middle (l₁ := m)).symm

theorem checksumMap_spec {tree : List (Str × DirEnt)} (h : OnePerPath tree) :
    KeySorted (checksumMap tree) ∧
    (checksumMap tree).Perm (tree.map (fun x => (utf8Bytes (listedPath x), x.2))) := by
  have := checksumFold (tree := tree) (m := []) List.Pairwise.nil (by simp) h
  simpa [checksumMap] using this

/-- What is fed for a directory entry: nothing, or the data. -/
def fedData (dev : Dev) (d : DirEnt) : Bytes :=
  if d.node.dirent.isDirectory then []
  else match readDataAll dev d.node.dirent with
    | .ok b => b
    | _ => []

theorem checksumLoop_eq {dev : Dev} : ∀ {m : List (Bytes × DirEnt)} {acc : Bytes},
    (∀ x ∈ m, x.2.node.dirent.isDirectory = false → ∃ b, readDataAll dev x.2.node.dirent = .ok b) →
    checksumLoop dev m acc = .ok (acc ++ m.flatMap (fun x => x.1 ++ fedData dev x.2)) := by
  intro m
  induction m with
  | nil => intro acc _; simp [checksumLoop]
  | cons y ys ih =>
    intro acc h
    obtain ⟨k, d⟩ := y
    have ih' := fun acc => ih (acc := acc) (fun x hx => h x (List.mem_cons_of_mem _ hx))
    simp only [checksumLoop, List.flatMap_cons]
    by_cases hd : d.node.dirent.isDirectory = true
    · rw [if_pos hd, ih']
      simp [fedData, hd]
    · rw [if_neg hd]
      obtain ⟨b, hb⟩ := h (k, d) (by simp) (by simpa using hd)
      rw [hb]
      simp only [Res.ok_bind]
      rw [ih']
      simp [fedData, hd, hb]

/-- A strictly sorted list is determined by its elements. -/
theorem keySorted_unique {l : List (Bytes × α)} : ∀ {l' : List (Bytes × α)}, KeySorted l → KeySorted l' →
    l.Perm l' → l = l' := by
  induction l with
  | nil => intro l' _ _ h; exact h.nil_eq
  | cons a as ih =>
    intro l' h1 h2 hp
    cases l' with
    | nil => exact absurd hp.length_eq (by simp)
    | cons b bs =>
      have p1 := List.pairwise_cons.1 h1
      have p2 := List.pairwise_cons.1 h2
      have hab : a = b := by
        rcases List.mem_cons.1 (hp.mem_iff.1 (List.mem_cons_self)) with h | h
        · exact h
        · rcases List.mem_cons.1 (hp.mem_iff.2 (List.mem_cons_self)) with g | g
          · exact g.symm
          · have x1 := p2.1 a h
            have x2 := p1.1 b g
            have := cmpBytes_trans x1 x2
            rw [cmpBytes_eq.2 rfl] at this; cases this
      subst hab
      rw [ih p1.2 p2.2 ((List.perm_cons a).1 hp)]

/-- The sequence of (path, data) pairs of a listing. -/
def fedPairs (dev : Dev) (tree : List (Str × DirEnt)) : List (Bytes × Bytes) :=
  tree.map (fun x => (utf8Bytes (listedPath x), fedData dev x.2))

/-- The checksum input of a listing is determined by its (path, data) pairs: it is their concatenation
in the order of the paths. -/
theorem checksumInput_eq {dev : Dev} {root : Region} {fuel : Nat} {tree : List (Str × DirEnt)}
    (ht : fileTree dev root fuel = .ok tree) (h1 : OnePerPath tree) (h2 : Readable dev tree) :
    ∃ L, KeySorted L ∧ L.Perm (fedPairs dev tree) ∧
      checksumInput dev root fuel = .ok (L.flatMap (fun x => x.1 ++ x.2)) := by
  obtain ⟨hs, hp⟩ := checksumMap_spec h1
  refine ⟨(checksumMap tree).map (fun x => (x.1, fedData dev x.2)), ?_, ?_, ?_⟩
  · exact List.pairwise_map.2 hs
  · have := hp.map (fun x => (x.1, fedData dev x.2))
    rwa [List.map_map] at this
  · unfold checksumInput
    rw [ht, Res.ok_bind, checksumLoop_eq]
    · rw [List.nil_append, List.flatMap_map]
    · intro x hx hd
      obtain ⟨y, hy, rfl⟩ := List.mem_map.1 (hp.mem_iff.1 hx)
      exact h2 y hy hd

theorem checksumInput_of {dev : Dev} {root : Region} {fuel : Nat} {tree : List (Str × DirEnt)}
    (ht : fileTree dev root fuel = .ok tree) (h1 : OnePerPath tree) (h2 : Readable dev tree)
    {L : List (Bytes × Bytes)} (hs : KeySorted L) (hp : L.Perm (fedPairs dev tree)) :
    checksumInput dev root fuel = .ok (L.flatMap (fun x => x.1 ++ x.2)) := by
  obtain ⟨L', g1, g2, g3⟩ := checksumInput_eq ht h1 h2
  rw [keySorted_unique hs g1 (hp.trans g2.symm)]; exact g3

/-- The pairs of a listing are determined by what is at its paths. -/
theorem fedPairs_perm {a b : Dev} {ta tb : List (Str × DirEnt)} (ha : OnePerPath ta) (hb : OnePerPath tb)
    (ra : Readable a ta) (rb : Readable b tb)
    (h : ∀ path c, HasAt a ta path c ↔ HasAt b tb path c) : (fedPairs a ta).Perm (fedPairs b tb) := by
  have nodup : ∀ (d : Dev) (t : List (Str × DirEnt)), OnePerPath t → (fedPairs d t).Nodup := by
    intro d t ht
    have : ((fedPairs d t).map Prod.fst).Nodup := by
      rw [fedPairs, List.map_map]
      have e : (t.map (Prod.fst ∘ fun x => (utf8Bytes (listedPath x), fedData d x.2))) =
          (t.map listedPath).map utf8Bytes := by
        rw [List.map_map]; rfl
      rw [e]
      exact List.pairwise_map.2 ((show (t.map listedPath).Nodup from ht).imp (fun hne e => hne (utf8Bytes_inj e)))
    exact (List.pairwise_map.1 this).imp (fun hne e => hne (by rw [e]))
  have sub : ∀ (d d' : Dev) (t t' : List (Str × DirEnt)), Readable d t →
      (∀ path c, HasAt d t path c → HasAt d' t' path c) → ∀ x ∈ fedPairs d t, x ∈ fedPairs d' t' := by
    intro d d' t t' rt hh x hx
    obtain ⟨⟨p, e⟩, hy, rfl⟩ := List.mem_map.1 hx
    by_cases hd : e.node.dirent.isDirectory = true
    · obtain ⟨p', e', m1, m2, m3⟩ := hh (p ++ '/' :: e.nameStr) .dir ⟨p, e, hy, rfl, hd⟩
      refine List.mem_map.2 ⟨(p', e'), m1, ?_⟩
      simp only at m3
      simp [listedPath, m2, fedData, hd, m3]
    · have hd' : e.node.dirent.isDirectory = false := by simpa using hd
      obtain ⟨v, hv⟩ := rt _ hy hd'
      obtain ⟨p', e', m1, m2, m3, m4⟩ := hh (p ++ '/' :: e.nameStr) (.file v) ⟨p, e, hy, rfl, hd', hv⟩
      refine List.mem_map.2 ⟨(p', e'), m1, ?_⟩
      simp only at hv
      simp [listedPath, m2, fedData, hd', m3, hv, m4]
  exact (List.perm_ext_iff_of_nodup (nodup a ta ha) (nodup b tb hb)).2 (fun x =>
    ⟨sub a b ta tb ra (fun p c => (h p c).1) x, sub b a tb ta rb (fun p c => (h p c).2) x⟩)

theorem fedPairs_nodup (d : Dev) {t : List (Str × DirEnt)} (ht : OnePerPath t) : ((fedPairs d t).map Prod.fst).Nodup := by
  rw [fedPairs, List.map_map]
  have e : (t.map (Prod.fst ∘ fun x => (utf8Bytes (listedPath x), fedData d x.2))) =
      (t.map listedPath).map utf8Bytes := by
    rw [List.map_map]; rfl
  rw [e]
  exact List.pairwise_map.2 ((show (t.map listedPath).Nodup from ht).imp (fun hne e => hne (utf8Bytes_inj e)))

/-- The data of a content. -/
def contentData : Content → Bytes
  | .dir => []
  | .file b => b

theorem mem_fedPairs {d : Dev} {t : List (Str × DirEnt)} (hr : Readable d t) {k v : Bytes} :
    (k, v) ∈ fedPairs d t ↔ ∃ path c, HasAt d t path c ∧ k = utf8Bytes path ∧ v = contentData c := by
  constructor
  · intro h
    obtain ⟨⟨p, e⟩, hy, he⟩ := List.mem_map.1 h
    simp only [Prod.mk.injEq] at he
    obtain ⟨rfl, rfl⟩ := he
    by_cases hd : e.node.dirent.isDirectory = true
    · exact ⟨_, .dir, ⟨p, e, hy, rfl, hd⟩, rfl, by simp [fedData, hd, contentData]⟩
    · have hd' : e.node.dirent.isDirectory = false := by simpa using hd
      obtain ⟨b, hb⟩ := hr _ hy hd'
      simp only at hb
      exact ⟨_, .file b, ⟨p, e, hy, rfl, hd', hb⟩, rfl, by simp [fedData, hd', hb, contentData]⟩
  · rintro ⟨path, c, ⟨p, e, m, rfl, hc⟩, rfl, rfl⟩
    refine List.mem_map.2 ⟨(p, e), m, ?_⟩
    cases c with
    | dir =>
      simp only at hc
      simp [listedPath, fedData, hc, contentData]
    | file b =>
      obtain ⟨c1, c2⟩ := hc
      simp [listedPath, fedData, c1, c2, contentData]

theorem flatMap_split : ∀ {la lb : List (Bytes × Bytes)},
    la.map (fun x => (x.1, x.2.length)) = lb.map (fun x => (x.1, x.2.length)) →
    la.flatMap (fun x => x.1 ++ x.2) = lb.flatMap (fun x => x.1 ++ x.2) → la = lb := by
  intro la
  induction la with
  | nil => intro lb h _; cases lb with
    | nil => rfl
    | cons y ys => simp at h
  | cons x xs ih =>
    intro lb h1 h2
    cases lb with
    | nil => simp at h1
    | cons y ys =>
      simp only [List.map_cons, List.cons.injEq, Prod.mk.injEq] at h1
      obtain ⟨⟨e1, e2⟩, e3⟩ := h1
      rw [List.flatMap_cons, List.flatMap_cons, List.append_assoc, List.append_assoc, e1] at h2
      have h3 := List.append_cancel_left h2
      obtain ⟨e4, e5⟩ := List.append_inj h3 e2
      rw [ih e3 e5, Prod.ext e1 e4]

theorem hasAt_unique {d : Dev} {t : List (Str × DirEnt)} (ht : OnePerPath t) {path : Str} {c c' : Content}
    (h : HasAt d t path c) (h' : HasAt d t path c') : c = c' := by
  obtain ⟨p, e, m, e1, e2⟩ := h
  obtain ⟨p', e', m', e1', e2'⟩ := h'
  have : (p, e) = (p', e') := by
    have hinj := List.pairwise_map.1 (show (t.map listedPath).Nodup from ht)
    obtain ⟨i, hi, hx⟩ := List.getElem_of_mem m
    obtain ⟨j, hj, hy⟩ := List.getElem_of_mem m'
    have hp : listedPath t[i] = listedPath t[j] := by
      rw [hx, hy]; exact e1.symm.trans e1'
    rcases Nat.lt_trichotomy i j with hlt | heq | hgt
    · exact absurd hp (List.pairwise_iff_getElem.1 hinj i j hi hj hlt)
    · subst heq; rw [← hx, ← hy]
    · exact absurd hp.symm (List.pairwise_iff_getElem.1 hinj j i hj hi hgt)
  cases this
  cases c <;> cases c' <;> simp only at e2 e2'
  · rfl
  · rw [e2'.1] at e2; cases e2
  · rw [e2.1] at e2'; cases e2'
  · have e3 := e2'.2
    rw [e2.2] at e3
    simpa using e3

theorem fedPairs_of_shape {a b : Dev} {ta tb : List (Str × DirEnt)} (ra : Readable a ta) (rb : Readable b tb)
    (h : ∀ path k, (∃ c, HasAt a ta path c ∧ c.shape = k) → (∃ c, HasAt b tb path c ∧ c.shape = k)) :
    ∀ x ∈ (fedPairs a ta).map (fun x => (x.1, x.2.length)), x ∈ (fedPairs b tb).map (fun x => (x.1, x.2.length)) := by
  intro x hx
  obtain ⟨⟨k, v⟩, hy, rfl⟩ := List.mem_map.1 hx
  obtain ⟨path, c, h1, rfl, rfl⟩ := (mem_fedPairs ra).1 hy
  obtain ⟨c', h2, h3⟩ := h path c.shape ⟨c, h1, rfl⟩
  refine List.mem_map.2 ⟨(utf8Bytes path, contentData c'), (mem_fedPairs rb).2 ⟨path, c', h2, rfl, rfl⟩, ?_⟩
  cases c <;> cases c' <;> simp [Content.shape] at h3 <;> simp [contentData, h3]

/-! ## Listings of a source tree -/

theorem slashPath_concat (p : Path) (n : Str) : slashPath p ++ '/' :: n = slashPath (p ++ [n]) := by
  rw [slashPath_append]; simp [slashPath]

theorem splitSlash_slashPath : ∀ (q : Path) (s : Str), '/' ∉ s → (∀ c ∈ q, '/' ∉ c) →
    splitSlash (s ++ slashPath q) = s :: q := by
  intro q
  induction q with
  | nil => intro s hs _; simp [slashPath, splitSlash_plain hs]
  | cons c cs ih =>
    intro s hs hq
    have e : slashPath (c :: cs) = '/' :: (c ++ slashPath cs) := by simp [slashPath]
    rw [e, splitSlash_append hs, ih c (hq c (by simp)) (fun d hd => hq d (by simp [hd]))]

theorem slashPath_inj {p q : Path} (hp : ∀ c ∈ p, '/' ∉ c) (hq : ∀ c ∈ q, '/' ∉ c)
    (h : slashPath p = slashPath q) : p = q := by
  have h1 := splitSlash_slashPath p [] (by simp) hp
  have h2 := splitSlash_slashPath q [] (by simp) hq
  rw [List.nil_append] at h1 h2
  rw [h, h2] at h1
  simpa using h1.symm

theorem dirOf_plain {rd : Path → Res (List FileEntry)} (hn : ∀ p e, EntryIn rd p e → '/' ∉ e.name) {p : Path}
    (h : DirOf rd p) : ∀ c ∈ p, '/' ∉ c := by
  induction h with
  | root => intro c hc; cases hc
  | @sub p l e h1 h2 h3 h4 ih =>
    intro c hc
    rcases List.mem_append.1 hc with hc | hc
    · exact ih c hc
    · rw [List.mem_singleton] at hc
      subst hc
      exact hn p e ⟨h1, l, h2, h3⟩

theorem entry_plain {rd : Path → Res (List FileEntry)} (hn : ∀ p e, EntryIn rd p e → '/' ∉ e.name) {p : Path}
    {e : FileEntry} (h : EntryIn rd p e) : ∀ c ∈ p ++ [e.name], '/' ∉ c := by
  intro c hc
  rcases List.mem_append.1 hc with hc | hc
  · exact dirOf_plain hn h.1 c hc
  · rw [List.mem_singleton] at hc
    subst hc
    exact hn p e h

/-- What the listing of an image that lists a source tree has at its paths. -/
theorem ListsTree.hasAt {dev : Dev} {tab : Region} {rd : Path → Res (List FileEntry)} {content : Path → Bytes}
    (h : ListsTree dev tab rd content) (hd : AllDistinct rd) (hn : ∀ p e, EntryIn rd p e → '/' ∉ e.name) :
    ∃ n listed, (∀ fuel, n < fuel → fileTree dev tab fuel = .ok listed) ∧
      Readable dev listed ∧ OnePerPath listed ∧
      ∀ path c, HasAt dev listed path c ↔ ∃ p e, EntryIn rd p e ∧ path = slashPath (p ++ [e.name]) ∧
        c = if e.isDir then .dir else .file (content (p ++ [e.name])) := by
  obtain ⟨all, h1, h2, listed, h3, h4⟩ := h
  have back : ∀ x ∈ listed, ∃ y ∈ all, direntKey dev x = entryKey content y := by
    intro x hx
    obtain ⟨y, hy, e⟩ := List.mem_map.1 (h4.mem_iff.1 (List.mem_map_of_mem hx))
    exact ⟨y, hy, e.symm⟩
  refine ⟨_, listed, h3, ?_, ?_, ?_⟩
  · intro x hx hd
    obtain ⟨y, _, e⟩ := back x hx
    simp only [direntKey, entryKey, Prod.mk.injEq] at e
    obtain ⟨_, _, e3, e4⟩ := e
    rw [← e3, hd] at e4
    simp only [Bool.false_eq_true, if_false, Option.some.injEq, Prod.mk.injEq] at e4
    exact ⟨_, e4.2⟩
  · have hperm := h4.map (fun k => k.1 ++ '/' :: k.2.1)
    rw [List.map_map, List.map_map] at hperm
    refine hperm.nodup_iff.2 ?_
    refine List.pairwise_map.2 (List.Pairwise.imp_of_mem ?_ h1)
    rintro ⟨p, e⟩ ⟨q, e'⟩ m1 m2 hne heq
    simp only [Function.comp, entryKey, slashPath_concat] at heq
    have x1 := (h2 p e).1 m1
    have x2 := (h2 q e').1 m2
    have := slashPath_inj (entry_plain hn x1) (entry_plain hn x2) heq
    obtain ⟨rfl, e2⟩ := List.append_inj' this rfl
    simp only [List.cons.injEq, and_true] at e2
    obtain ⟨_, l, g1, g2⟩ := x1
    obtain ⟨_, l', g3, g4⟩ := x2
    rw [g1] at g3
    cases g3
    exact hne (by rw [distinct_unique (hd p l (by assumption) g1) g2 g4 (by rw [e2]; rfl)])
  · intro path c
    constructor
    · rintro ⟨p, d, m, rfl, hc⟩
      obtain ⟨⟨q, e⟩, hy, k⟩ := back _ m
      simp only [direntKey, entryKey, Prod.mk.injEq] at k
      obtain ⟨k1, k2, k3, k4⟩ := k
      refine ⟨q, e, (h2 q e).1 hy, by rw [k1, k2]; exact slashPath_concat _ _, ?_⟩
      cases c with
      | dir => simp only at hc; rw [← k3, hc]; rfl
      | file b =>
        obtain ⟨c1, c2⟩ := hc
        rw [← k3, c1] at k4 ⊢
        simp only [Bool.false_eq_true, if_false, Option.some.injEq, Prod.mk.injEq] at k4 ⊢
        rw [c2] at k4
        simpa using k4.2
    · rintro ⟨q, e, he, rfl, rfl⟩
      obtain ⟨⟨p, d⟩, m, k⟩ := List.mem_map.1 (h4.mem_iff.2 (List.mem_map_of_mem ((h2 q e).2 he)))
      simp only [direntKey, entryKey, Prod.mk.injEq] at k
      obtain ⟨k1, k2, k3, k4⟩ := k
      refine ⟨p, d, m, by rw [k1, k2]; exact (slashPath_concat _ _).symm, ?_⟩
      rw [← k3]
      by_cases hd : d.node.dirent.isDirectory = true
      · rw [if_pos hd]; exact hd
      · rw [if_neg hd]
        have hd' : d.node.dirent.isDirectory = false := by simpa using hd
        rw [← k3, hd'] at k4
        simp only [Bool.false_eq_true, if_false, Option.some.injEq, Prod.mk.injEq] at k4 ⊢
        exact ⟨hd', k4.2⟩

end Xdvdfs
