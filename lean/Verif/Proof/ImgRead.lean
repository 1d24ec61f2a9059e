import Verif.Proof.PackMain
import Verif.Props.Reader
import Verif.Props.Codec
import Verif.Spec.Pack

/-!
# Reading an image that stores a source tree
-/

namespace Xdvdfs

open TabWriter Spec Props

theorem DirOf.split {rd : ReadDir} : ∀ {P : Path}, DirOf rd P → ∀ {p a r}, P = p ++ a :: r →
    DirOf rd p ∧ ∃ lst e, rd p = .ok lst ∧ e ∈ lst ∧ e.isDir = true ∧ e.name = a := by
  intro P h
  induction h with
  | root => intro p a r h; simp at h
  | @sub p' l e h1 h2 h3 h4 ih =>
    intro p a r h
    rcases List.eq_nil_or_concat r with rfl | ⟨r0, z, rfl⟩
    · obtain ⟨k1, k2⟩ := List.append_inj' h rfl
      subst k1
      simp at k2
      exact ⟨h1, l, e, h2, h3, h4, k2⟩
    · apply ih (r := r0)
      have : p ++ a :: (r0.concat z) = (p ++ a :: r0) ++ [z] := by simp
      rw [this] at h
      exact (List.append_inj' h rfl).1

theorem samePath_cons {a b : Str} {p q : Path} : SamePath (a :: p) (b :: q) ↔ SameName a b ∧ SamePath p q := by
  simp [SamePath, SameName]

theorem samePath_snoc {a b : Str} {p q : Path} : SamePath (p ++ [a]) (q ++ [b]) ↔ SamePath p q ∧ SameName a b := by
  constructor
  · intro h
    unfold SamePath at h
    rw [List.map_append, List.map_append] at h
    obtain ⟨h1, h2⟩ := List.append_inj' h rfl
    simp at h2
    exact ⟨h1, h2⟩
  · rintro ⟨h1, h2⟩
    unfold SamePath at *
    rw [List.map_append, List.map_append, h1]
    simp [show upper a = upper b from h2]

/-- Names are distinct in every directory. -/
def AllDistinct (rd : ReadDir) : Prop :=
  ∀ p l, DirOf rd p → rd p = .ok l → DistinctNames (l.map (·.name))

theorem distinct_unique {l : List FileEntry} (h : DistinctNames (l.map (·.name))) {e e' : FileEntry}
    (h1 : e ∈ l) (h2 : e' ∈ l) (h3 : SameName e.name e'.name) : e = e' := by
  unfold DistinctNames at h
  rw [List.pairwise_map] at h
  induction l with
  | nil => simp at h1
  | cons x l ih =>
    have h' := List.pairwise_cons.1 h
    rcases List.mem_cons.1 h1 with k1 | k1 <;> rcases List.mem_cons.1 h2 with k2 | k2
    · rw [k1, k2]
    · subst k1; exact absurd h3 (h'.1 _ k2)
    · subst k2; exact absurd (Eq.symm h3) (h'.1 _ k1)
    · exact ih h'.2 k1 k2

theorem dirOf_unique {rd : ReadDir} (hd : AllDistinct rd) {p : Path} (h : DirOf rd p) :
    ∀ {q}, DirOf rd q → SamePath p q → p = q := by
  induction h with
  | root => intro q _ hs; simp [SamePath] at hs; exact hs.symm
  | @sub p l e h1 h2 h3 h4 ih =>
    intro q hq hs
    cases hq with
    | root => simp [SamePath] at hs
    | @sub q' l' e' g1 g2 g3 g4 =>
      obtain ⟨k1, k2⟩ := samePath_snoc.1 hs
      have := ih g1 k1
      subst this
      rw [h2] at g2; cases g2
      rw [distinct_unique (hd _ _ h1 h2) h3 g3 k2]

theorem entry_unique {rd : ReadDir} (hd : AllDistinct rd) {p q : Path} {e e' : FileEntry}
    (h1 : EntryIn rd p e) (h2 : EntryIn rd q e') (hs : SamePath (p ++ [e.name]) (q ++ [e'.name])) :
    p = q ∧ e = e' := by
  obtain ⟨k1, k2⟩ := samePath_snoc.1 hs
  obtain ⟨a1, l, a2, a3⟩ := h1
  obtain ⟨b1, l', b2, b3⟩ := h2
  have := dirOf_unique hd a1 b1 k1
  subst this
  rw [a2] at b2; cases b2
  exact ⟨rfl, distinct_unique (hd _ _ a1 a2) a3 b3 k2⟩

variable {rd : ReadDir} {content : Path → Bytes} {dev : Dev} {M : PathMap TabWriter}
  {Loc : Path → Listing → Prop}

theorem itemOf_names (M : PathMap TabWriter) (p : Path) (lst : List FileEntry) :
    (lst.map (itemOf M p)).map (·.name) = lst.map (·.name) := by
  rw [List.map_map]; rfl

theorem itemOf_stored {M : PathMap TabWriter} {p : Path} {e : FileEntry} (h : EntryOK M p e)
    (hd : e.isDir = false) : (itemOf M p e).storedSize = e.len := by
  simp only [Item.storedSize, itemOf, hd]
  simp only [Bool.false_eq_true, if_false]
  exact UInt32.toNat_ofNat_of_lt' (h.2 hd)

theorem isDirectory_attrs {d : DiskData} {it : Item} (h : d.attrs = it.attrs) : d.isDirectory = it.isDir := by
  unfold DiskData.isDirectory
  rw [h]
  unfold Item.attrs
  cases it.isDir <;> decide

theorem region_ext {r : Region} {l : Listing} (h1 : r.sector.toNat = l.sector) (h2 : r.size.toNat = l.size) :
    r = regionOf l := by
  cases r with
  | mk s z =>
    simp only [regionOf, Region.mk.injEq]
    simp only at h1 h2
    rw [← h1, ← h2]
    simp

/-- The outcome of one directory search. -/
theorem DirImg.find (h : DirImg rd dev M Loc) {p : Path} {l : Listing} (hl : Loc p l)
    (hd : l.isDir = true) (name : Str) {fuel : Nat} (hf : SearchBudget rd fuel) :
    ∃ lst, DirOf rd p ∧ rd p = .ok lst ∧
      ((∃ e d l', e ∈ lst ∧ SameName e.name name ∧ findDirent dev (regionOf l) name fuel = .ok d ∧
        d.nameStr = e.name ∧ d.node.dirent.data = regionOf l' ∧ d.node.dirent.isDirectory = e.isDir ∧
        Loc (p ++ [e.name]) l' ∧ l'.isDir = e.isDir) ∨
       ((∀ e ∈ lst, ¬ SameName e.name name) ∧
        findDirent dev (regionOf l) name fuel = .err .doesNotExist)) := by
  obtain ⟨hdir, lst, w, r, n, n', h1, h2, h3, h4, h5, h6⟩ := h.dirs p l hl hd
  refine ⟨lst, hdir, h1, ?_⟩
  obtain ⟨c1, c2⟩ := C23_lookup h3 h4 h5 name
  have hb := hf p lst hdir h1
  by_cases hex : ∃ e ∈ lst, SameName e.name name
  · left
    obtain ⟨e, he, hs⟩ := hex
    obtain ⟨d, l', g1, g2, g3, g4, g5, g6, g7, g8, g9⟩ :=
      c1 (itemOf M p e) (List.mem_map_of_mem he) hs
    refine ⟨e, d, l', he, hs, g1 fuel (by simpa using hb), g2, region_ext g9 (by rw [g3, g7]),
      isDirectory_attrs g4, ?_, g8⟩
    have := h6 l' g5
    rw [g6] at this
    exact this
  · right
    have hno : ∀ e ∈ lst, ¬ SameName e.name name := fun e he hs => hex ⟨e, he, hs⟩
    refine ⟨hno, c2 ?_ fuel (by simpa using hb)⟩
    intro it hit
    obtain ⟨e, he, rfl⟩ := List.mem_map.1 hit
    exact hno e he

/-- The outcome of looking up a path. -/
theorem DirImg.walk (h : DirImg rd dev M Loc) (hdist : AllDistinct rd) {fuel : Nat}
    (hf : SearchBudget rd fuel) : ∀ (q : Path), q ≠ [] → ∀ {p : Path} {l : Listing}, Loc p l →
    l.isDir = true →
    (∃ r e d l', EntryIn rd (p ++ r) e ∧ SamePath (r ++ [e.name]) q ∧
      walkSegments dev fuel (regionOf l) q = .ok d ∧ d.nameStr = e.name ∧
      d.node.dirent.data = regionOf l' ∧ d.node.dirent.isDirectory = e.isDir ∧
      Loc (p ++ r ++ [e.name]) l' ∧ l'.isDir = e.isDir) ∨
    ((∀ r e, EntryIn rd (p ++ r) e → ¬ SamePath (r ++ [e.name]) q) ∧
      (walkSegments dev fuel (regionOf l) q = .err .doesNotExist ∨
       walkSegments dev fuel (regionOf l) q = .err .isNotDirectory)) := by
  intro q
  induction q with
  | nil => intro hq; exact absurd rfl hq
  | cons s qs ih =>
    intro _ p l hl hd
    obtain ⟨lst, hdir, hrd, hcase⟩ := h.find hl hd s hf
    -- the first component of any matching entry is in `lst`
    have hfirst : ∀ r e, EntryIn rd (p ++ r) e → SamePath (r ++ [e.name]) (s :: qs) →
        (r = [] ∧ qs = [] ∧ e ∈ lst ∧ SameName e.name s) ∨
        (∃ e1 r', r = e1.name :: r' ∧ e1 ∈ lst ∧ e1.isDir = true ∧ SameName e1.name s ∧
          SamePath (r' ++ [e.name]) qs) := by
      intro r e he hs
      cases r with
      | nil =>
        left
        obtain ⟨_, l2, g1, g2⟩ := he
        rw [List.append_nil, hrd] at g1
        cases g1
        obtain ⟨k1, k2⟩ := samePath_cons.1 hs
        simp [SamePath] at k2
        exact ⟨rfl, k2, g2, k1⟩
      | cons a r' =>
        right
        obtain ⟨g1, _⟩ := he
        obtain ⟨_, l2, e1, g2, g3, g4, g5⟩ := DirOf.split g1 rfl
        rw [hrd] at g2
        cases g2
        obtain ⟨k1, k2⟩ := samePath_cons.1 hs
        exact ⟨e1, r', by rw [g5], g3, g4, by rw [g5]; exact k1, k2⟩
    rcases hcase with ⟨e1, d, l', he1, hs1, hfind, hn1, hr1, hk1, hloc, hk2⟩ | ⟨hno, hfind⟩
    · have huniq : ∀ e ∈ lst, SameName e.name s → e = e1 := fun e he hs =>
        distinct_unique (hdist p lst hdir hrd) he he1 (hs.trans hs1.symm)
      by_cases hqs : qs = []
      · left
        subst hqs
        refine ⟨[], e1, d, l', by rw [List.append_nil]; exact ⟨hdir, lst, hrd, he1⟩,
          samePath_cons.2 ⟨hs1, rfl⟩, ?_, hn1, hr1, hk1, by rw [List.append_nil]; exact hloc, hk2⟩
        simp only [walkSegments, hfind, Res.ok_bind, if_true]
        rfl
      · have hw : walkSegments dev fuel (regionOf l) (s :: qs)
            = (Res.ofOption .isNotDirectory d.node.dirent.direntTable) >>= fun t => walkSegments dev fuel t qs := by
          simp only [walkSegments, hfind, Res.ok_bind, if_neg hqs]
        rw [hw]
        unfold DiskData.direntTable
        rw [hk1]
        cases hd1 : e1.isDir with
        | false =>
          right
          refine ⟨?_, ?_⟩
          · intro r e he hs
            rcases hfirst r e he hs with ⟨_, k, _⟩ | ⟨e2, r', _, k2, k3, k4, _⟩
            · exact hqs k
            · rw [huniq e2 k2 k4, hd1] at k3; cases k3
          · right; simp [Res.ofOption]
        | true =>
          simp only [if_true, Res.ofOption_some, Res.ok_bind, hr1]
          rcases ih hqs hloc (by rw [hk2, hd1]) with
            ⟨r, e, d', l2, g1, g2, g3, g4, g5, g6, g7, g8⟩ | ⟨g1, g2⟩
          · left
            refine ⟨e1.name :: r, e, d', l2, ?_, samePath_cons.2 ⟨hs1, g2⟩, g3, g4, g5, g6, ?_, g8⟩
            · rw [show p ++ e1.name :: r = p ++ [e1.name] ++ r by simp]; exact g1
            · rw [show p ++ e1.name :: r = p ++ [e1.name] ++ r by simp]; exact g7
          · right
            refine ⟨?_, g2⟩
            intro r e he hs
            rcases hfirst r e he hs with ⟨_, k, _⟩ | ⟨e2, r', k1, k2, k3, k4, k5⟩
            · exact hqs k
            · have := huniq e2 k2 k4
              subst this
              subst k1
              exact g1 r' e (by rw [show p ++ [e2.name] ++ r' = p ++ e2.name :: r' by simp]; exact he) k5
    · right
      refine ⟨?_, ?_⟩
      · intro r e he hs
        rcases hfirst r e he hs with ⟨_, _, k1, k2⟩ | ⟨e2, r', _, k2, _, k4, _⟩
        · exact hno e k1 k2
        · exact hno e2 k2 k4
      · left; simp [walkSegments, hfind]

/-! ## Path strings -/

theorem splitSlash_append {s : Str} (hs : '/' ∉ s) (t : Str) :
    splitSlash (s ++ '/' :: t) = s :: splitSlash t := by
  induction s with
  | nil => simp [splitSlash]
  | cons c s ih =>
    simp only [List.mem_cons, not_or] at hs
    simp only [List.cons_append, splitSlash]
    rw [if_neg (fun h => hs.1 h.symm), ih hs.2]

theorem splitSlash_plain {s : Str} (hs : '/' ∉ s) : splitSlash s = [s] := by
  induction s with
  | nil => rfl
  | cons c s ih =>
    simp only [List.mem_cons, not_or] at hs
    simp only [splitSlash]
    rw [if_neg (fun h => hs.1 h.symm), ih hs.2]

theorem splitSlash_path : ∀ (q : Path) (s : Str), '/' ∉ s → PlainPath q →
    splitSlash (s ++ slashPath q) = s :: q := by
  intro q
  induction q with
  | nil => intro s hs _; simp [slashPath, splitSlash_plain hs]
  | cons t q ih =>
    intro s hs hp
    have : slashPath (t :: q) = '/' :: (t ++ slashPath q) := rfl
    rw [this, splitSlash_append hs, ih t (hp t (by simp)).2 (fun x hx => hp x (by simp [hx]))]

theorem splitTerminator_path {q : Path} (hq : q ≠ []) (hp : PlainPath q) :
    splitTerminator (trimSlashes (slashPath q)) = q := by
  cases q with
  | nil => exact absurd rfl hq
  | cons s q =>
    have h1 : slashPath (s :: q) = '/' :: (s ++ slashPath q) := rfl
    have hs := hp s (by simp)
    have h2 : trimSlashes (s ++ slashPath q) = s ++ slashPath q := by
      cases hs' : s with
      | nil => exact absurd hs' hs.1
      | cons c cs =>
        have hc : c ≠ '/' := by
          intro h; apply hs.2; rw [hs', h]; simp
        rw [List.cons_append]
        unfold trimSlashes
        split
        · next h => cases h; exact absurd rfl hc
        · rfl
    rw [h1]
    have : trimSlashes ('/' :: (s ++ slashPath q)) = s ++ slashPath q := by
      rw [trimSlashes]; exact h2
    rw [this]
    unfold splitTerminator
    have h3 := splitSlash_path q s hs.2 (fun x hx => hp x (by simp [hx]))
    simp only [h3]
    rw [if_neg]
    intro h
    have := List.mem_of_getLast? h
    exact (hp _ this).1 rfl

theorem walkPath_slash (dev : Dev) (tab : Region) (fuel : Nat) {q : Path} (hq : q ≠ []) (hp : PlainPath q) :
    walkPath dev tab (slashPath q) fuel = walkSegments dev fuel tab q := by
  unfold walkPath
  rw [splitTerminator_path hq hp, if_neg]
  cases q with
  | nil => exact absurd rfl hq
  | cons s q =>
    have h1 : slashPath (s :: q) = '/' :: (s ++ slashPath q) := rfl
    have hs := (hp s (by simp)).1
    rw [h1]
    cases s with
    | nil => exact absurd rfl hs
    | cons c cs => simp

/-! ## Lookups -/

theorem readDataAll_holds {d : DiskData} {l : Listing} (hd : d.data = regionOf l)
    (h1 : l.sector < 2 ^ 32) (h2 : l.size < 2 ^ 32) {b : Bytes} (hb : b.length = l.size)
    (hh : HoldsAt dev (2048 * l.sector) b) : readDataAll dev d = .ok b := by
  have hs : d.data.size.toNat = l.size := by
    rw [hd]; simp only [regionOf]; exact UInt32.toNat_ofNat_of_lt' h2
  have hsec : d.data.sector.toNat = l.sector := by
    rw [hd]; simp only [regionOf]; exact UInt32.toNat_ofNat_of_lt' h1
  unfold readDataAll
  by_cases hz : d.data.size = 0
  · rw [if_pos hz]
    rw [hz] at hs
    have : b = [] := List.length_eq_zero_iff.1 (by rw [hb, ← hs]; rfl)
    rw [this]
  · rw [if_neg hz]
    have hpos : 0 < d.data.size.toNat := by
      rcases Nat.eq_zero_or_pos d.data.size.toNat with h | h
      · exact absurd (UInt32.toNat_inj.1 (by rw [h]; rfl)) hz
      · exact h
    rw [Region.offset_of_lt hpos]
    simp only [Res.ok_bind, hsec]
    have := hh 0 l.size (by omega)
    rw [hs]
    rw [this]
    congr 1
    rw [slice, List.drop_zero, ← hb, List.take_length]

theorem DirImg.entry_lookup (h : DirImg rd dev M Loc) (hdist : AllDistinct rd) {l0 : Listing}
    (h0 : Loc [] l0) (hd0 : l0.isDir = true) {p : Path} {e : FileEntry} {q : Path} {fuel : Nat}
    (he : EntryIn rd p e) (hs : SamePath (p ++ [e.name]) q) (hp : PlainPath q) (hf : SearchBudget rd fuel) :
    ∃ d l', walkPath dev (regionOf l0) (slashPath q) fuel = .ok d ∧ d.nameStr = e.name ∧
      d.node.dirent.data = regionOf l' ∧ d.node.dirent.isDirectory = e.isDir ∧
      Loc (p ++ [e.name]) l' ∧ l'.isDir = e.isDir := by
  have hq : q ≠ [] := by
    rintro rfl; simp [SamePath] at hs
  rw [walkPath_slash dev _ fuel hq hp]
  rcases h.walk hdist hf q hq h0 hd0 with ⟨r, e', d, l', g1, g2, g3, g4, g5, g6, g7, g8⟩ | ⟨g1, _⟩
  · obtain ⟨k1, k2⟩ := entry_unique hdist he g1 (hs.trans (by simpa using g2.symm))
    subst k2
    rw [List.nil_append] at k1 g7
    subst k1
    exact ⟨d, l', g3, g4, g5, g6, g7, g8⟩
  · exact absurd hs (g1 p e (by rw [List.nil_append]; exact he))

theorem Img.findsFiles (h : Img rd content dev M Loc) (hdist : AllDistinct rd) {l0 : Listing}
    (h0 : Loc [] l0) (hd0 : l0.isDir = true) : FindsFiles dev (regionOf l0) rd content := by
  intro p e q fuel he hk hs hp hf
  obtain ⟨d, l', g1, g2, g3, g4, g5, g6⟩ := h.entry_lookup hdist h0 hd0 he hs hp hf
  obtain ⟨k1, k2⟩ := h.files _ _ g5 (by rw [g6, hk])
  obtain ⟨s1, s2⟩ := h.small _ _ g5
  exact ⟨d, g1, g2, by rw [g4, hk], readDataAll_holds g3 s1 s2 k1 k2⟩

theorem DirImg.findsDirs (h : DirImg rd dev M Loc) (hdist : AllDistinct rd) {l0 : Listing}
    (h0 : Loc [] l0) (hd0 : l0.isDir = true) : FindsDirs dev (regionOf l0) rd := by
  intro p e q fuel he hk hs hp hf
  obtain ⟨d, l', g1, g2, g3, g4, g5, g6⟩ := h.entry_lookup hdist h0 hd0 he hs hp hf
  exact ⟨d, g1, g2, by rw [g4, hk]⟩

theorem DirImg.findsNothingElse (h : DirImg rd dev M Loc) (hdist : AllDistinct rd) {l0 : Listing}
    (h0 : Loc [] l0) (hd0 : l0.isDir = true) : FindsNothingElse dev (regionOf l0) rd := by
  intro q fuel hq hp hno hf
  rw [walkPath_slash dev _ fuel hq hp]
  rcases h.walk hdist hf q hq h0 hd0 with ⟨r, e', d, l', g1, g2, _⟩ | ⟨_, g2⟩
  · exact absurd g2 (hno r e' (by simpa using g1))
  · exact g2

/-! ## Recursive listing -/

/-- The directories at or below `q`. -/
def under (Dp : List Path) (q : Path) : List Path := Dp.filter (fun v => decide (q <+: v))

theorem mem_under {Dp : List Path} {q v : Path} : v ∈ under Dp q ↔ v ∈ Dp ∧ q <+: v := by
  simp [under]

theorem under_step {Dp : List Path} (hn : Dp.Nodup) (hD : ∀ q, q ∈ Dp ↔ DirOf rd q) {p : Path}
    {lst : List FileEntry} (hp : DirOf rd p) (hrd : rd p = .ok lst)
    (hdist : DistinctNames (lst.map (·.name))) :
    (under Dp p).Perm (p :: (lst.filter (·.isDir)).flatMap (fun e => under Dp (p ++ [e.name]))) := by
  rw [List.perm_ext_iff_of_nodup]
  · intro v
    simp only [mem_under, List.mem_cons, List.mem_flatMap, List.mem_filter]
    constructor
    · rintro ⟨h1, s, rfl⟩
      cases s with
      | nil => left; simp
      | cons a s =>
        right
        obtain ⟨_, lst', e, g1, g2, g3, g4⟩ := DirOf.split ((hD _).1 h1) rfl
        rw [hrd] at g1; cases g1
        exact ⟨e, ⟨g2, g3⟩, h1, s, by simp [g4]⟩
    · rintro (rfl | ⟨e, ⟨_, _⟩, h1, s, rfl⟩)
      · exact ⟨(hD _).2 hp, List.prefix_refl _⟩
      · exact ⟨h1, e.name :: s, by simp⟩
  · exact hn.filter _
  · rw [List.nodup_cons]
    constructor
    · intro h
      obtain ⟨e, _, h⟩ := List.mem_flatMap.1 h
      obtain ⟨s, hs⟩ := (mem_under.1 h).2
      have := congrArg List.length hs
      simp at this
    · rw [List.nodup_iff_pairwise_ne, List.pairwise_flatMap]
      constructor
      · intro e _
        exact hn.filter (fun v => decide (p ++ [e.name] <+: v))
      · unfold DistinctNames at hdist
        rw [List.pairwise_map] at hdist
        refine (hdist.filter _).imp ?_
        intro a b hab x hx y hy hxy
        subst hxy
        obtain ⟨s, hs⟩ := (mem_under.1 hx).2
        obtain ⟨t, ht⟩ := (mem_under.1 hy).2
        rw [← ht] at hs
        simp only [List.append_assoc, List.append_cancel_left_eq, List.cons_append, List.nil_append,
          List.cons.injEq] at hs
        exact hab (by rw [hs.1]; rfl)

/-- The keys of the entries of the directory at `p`. -/
def keysOf (content : Path → Bytes) (rd : ReadDir) (p : Path) :
    List (Str × Str × Bool × Option (Nat × Res Bytes)) :=
  match rd p with
  | .ok lst => lst.map (fun e => entryKey content (p, e))
  | _ => []

theorem slashPath_snoc (p : Path) (n : Str) : slashPath (p ++ [n]) = slashPath p ++ ['/'] ++ n := by
  simp [slashPath]

theorem regionOf_summary (d : DirEnt) : regionOf (summary d) = d.node.dirent.data :=
  (region_ext rfl rfl).symm

theorem Img.list_dir (h : Img rd content dev M Loc) {p : Path} {l : Listing} (hl : Loc p l)
    (hd : l.isDir = true) : ∃ lst ds, DirOf rd p ∧ rd p = .ok lst ∧
      (∀ fuel, lst.length < fuel → walkDirentTree dev (regionOf l) fuel = .ok ds) ∧
      (∀ d ∈ ds, Loc (p ++ [d.nameStr]) (summary d)) ∧
      (ds.map (fun d => (d.nameStr, d.node.dirent.isDirectory))).Perm (lst.map (fun e => (e.name, e.isDir))) ∧
      (ds.map (fun d => direntKey dev (slashPath p, d))).Perm (keysOf content rd p) := by
  obtain ⟨hdir, lst, w, r, n, n', h1, h2, h3, h4, h5, h6⟩ := h.dirs p l hl hd
  obtain ⟨ds, g1, g2, g3, g4⟩ := C24_listing h3 h4 h5
  let key : Str × Nat × UInt8 → Str × Str × Bool × Option (Nat × Res Bytes) := fun x =>
    (slashPath p, x.1, x.2.2 &&& 0x10 != 0,
      if (x.2.2 &&& 0x10 != 0) = true then none else some (x.2.1, .ok (content (p ++ [x.1]))))
  have hattr : ∀ it : Item, (it.attrs &&& 0x10 != 0) = it.isDir := by
    intro it; unfold Item.attrs; cases it.isDir <;> decide
  refine ⟨lst, ds, hdir, h1, fun fuel hf => g1 fuel (by simpa using hf), ?_, ?_, ?_⟩
  · intro d hd
    exact h6 _ (g2.mem_iff.1 (List.mem_map_of_mem hd))
  · have := g3.map (fun x => (x.1, x.2.2 &&& 0x10 != 0))
    rw [List.map_map, List.map_map, List.map_map] at this
    refine (List.Perm.of_eq ?_).trans (this.trans (List.Perm.of_eq ?_))
    · rfl
    · apply List.map_congr_left
      intro e _
      simp only [Function.comp]
      rw [hattr]; rfl
  · have := g3.map key
    rw [List.map_map, List.map_map, List.map_map] at this
    refine (List.Perm.of_eq ?_).trans (this.trans (List.Perm.of_eq ?_))
    · apply List.map_congr_left
      intro d hd
      have hloc := h6 _ (g2.mem_iff.1 (List.mem_map_of_mem hd))
      cases hk : d.node.dirent.isDirectory with
      | true =>
        have hk' : (d.node.dirent.attrs &&& 0x10 != 0) = true := hk
        simp only [Function.comp, key, direntKey, hk, hk', if_true]
      | false =>
        have hk' : (d.node.dirent.attrs &&& 0x10 != 0) = false := hk
        obtain ⟨k1, k2⟩ := h.files _ _ hloc hk
        obtain ⟨s1, s2⟩ := h.small _ _ hloc
        have hr := readDataAll_holds (regionOf_summary d).symm s1 s2 k1 k2
        simp only [Function.comp, key, direntKey, hk, hk', hr, Bool.false_eq_true, if_false, summary]
    · unfold keysOf
      rw [h1]
      apply List.map_congr_left
      intro e he
      simp only [Function.comp, key, entryKey, hattr]
      cases hd' : e.isDir with
      | true => simp [itemOf, hd']
      | false => rw [itemOf_stored (h2 e he) hd']; simp [itemOf, hd']

theorem Img.tree_loop (h : Img rd content dev M Loc) (hdist : AllDistinct rd) {Dp : List Path}
    (hn : Dp.Nodup) (hD : ∀ q, q ∈ Dp ↔ DirOf rd q) {wf : Nat}
    (hwf : ∀ p lst, DirOf rd p → rd p = .ok lst → lst.length < wf) :
    ∀ (n : Nat) (S : List (Path × Listing)) (acc : List (Str × DirEnt)),
      (∀ x ∈ S, Loc x.1 x.2 ∧ x.2.isDir = true) →
      ((S.map Prod.fst).flatMap (under Dp)).length = n →
      ∃ L, (∀ fuel, n ≤ fuel →
          fileTreeLoop dev wf fuel (S.map (fun x => (slashPath x.1, regionOf x.2))) acc = .ok (acc.reverse ++ L)) ∧
        (L.map (direntKey dev)).Perm (((S.map Prod.fst).flatMap (under Dp)).flatMap (keysOf content rd)) := by
  intro n
  induction n using Nat.strongRecOn with
  | _ n ih =>
    intro S acc hS hlen
    cases S with
    | nil =>
      refine ⟨[], ?_, .refl _⟩
      intro fuel _
      cases fuel <;> simp [fileTreeLoop]
    | cons x S =>
      obtain ⟨p, l⟩ := x
      obtain ⟨hl, hd⟩ := hS (p, l) (by simp)
      obtain ⟨lst, ds, hdir, hrd, hwalk, hloc, hnames, hkeys⟩ := h.list_dir hl hd
      have hst := under_step hn hD hdir hrd (hdist p lst hdir hrd)
      let N : List (Path × Listing) :=
        ((ds.filter (fun d => d.node.dirent.isDirectory)).map (fun d => (p ++ [d.nameStr], summary d))).reverse
      have hN : (N.map Prod.fst).Perm ((lst.filter (·.isDir)).map (fun e => p ++ [e.name])) := by
        have e1 : N.map Prod.fst = ((ds.filter (fun d => d.node.dirent.isDirectory)).map
            (fun d => p ++ [d.nameStr])).reverse := by
          simp only [N, List.map_reverse, List.map_map]; rfl
        rw [e1]
        refine (List.reverse_perm _).trans ?_
        have := (hnames.filter (fun x => x.2)).map (fun x => p ++ [x.1])
        rw [List.filter_map, List.filter_map, List.map_map, List.map_map] at this
        exact this
      have hunder : (((p, l) :: S).map Prod.fst).flatMap (under Dp) =
          under Dp p ++ (S.map Prod.fst).flatMap (under Dp) := rfl
      have hU : ((((p, l) :: S).map Prod.fst).flatMap (under Dp)).Perm
          (p :: ((N ++ S).map Prod.fst).flatMap (under Dp)) := by
        rw [hunder, List.map_append, List.flatMap_append]
        refine (hst.append_right _).trans ?_
        rw [List.cons_append]
        apply List.Perm.cons
        apply List.Perm.append_right
        have := (hN.flatMap_right (under Dp)).symm
        rw [List.flatMap_map] at this
        exact this
      have hl2 := hU.length_eq
      rw [hlen, List.length_cons] at hl2
      have hNS : ∀ x ∈ N ++ S, Loc x.1 x.2 ∧ x.2.isDir = true := by
        intro x hx
        rcases List.mem_append.1 hx with hx | hx
        · simp only [N, List.mem_reverse, List.mem_map, List.mem_filter] at hx
          obtain ⟨d, ⟨k1, k2⟩, rfl⟩ := hx
          exact ⟨hloc d k1, k2⟩
        · exact hS x (by simp [hx])
      obtain ⟨L, hL1, hL2⟩ := ih (n - 1) (by omega) (N ++ S)
        ((ds.map fun c => (slashPath p, c)).reverse ++ acc) hNS (by omega)
      refine ⟨ds.map (fun c => (slashPath p, c)) ++ L, ?_, ?_⟩
      · intro fuel hfu
        obtain ⟨f, rfl⟩ : ∃ f, fuel = f + 1 := ⟨fuel - 1, by omega⟩
        have hsub : (subdirsOf (slashPath p) ds).reverse = N.map (fun x => (slashPath x.1, regionOf x.2)) := by
          simp only [N, List.map_reverse, List.map_map]
          congr 1
          unfold subdirsOf
          clear hwalk hloc hnames hkeys hN hU hl2 hNS hL1 hL2 N
          induction ds with
          | nil => rfl
          | cons d ds ih2 =>
            rw [List.filterMap_cons]
            cases hk : d.node.dirent.isDirectory with
            | false =>
              rw [List.filter_cons_of_neg (by simp [hk])]
              simp only [DiskData.direntTable, hk, Bool.false_eq_true, if_false, Option.map_none]
              exact ih2
            | true =>
              rw [List.filter_cons_of_pos (by simp [hk])]
              simp only [DiskData.direntTable, hk, if_true, Option.map_some, List.map_cons, Function.comp,
                regionOf_summary, slashPath_snoc]
              congr 1
        simp only [List.map_cons, fileTreeLoop, hwalk wf (hwf p lst hdir hrd), Res.ok_bind, hsub]
        rw [← List.map_append, hL1 f (by omega)]
        simp
      · rw [List.map_append, List.map_map]
        refine (List.Perm.append hkeys hL2).trans ?_
        have := hU.flatMap_right (keysOf content rd)
        exact this.symm

theorem walked_length {S : List Path} {D : List (Path × List FileEntry)} (h : Walked rd S D) :
    D.length = S.length + (D.flatMap (fun x => x.2.filter (·.isDir))).length := by
  induction h with
  | nil => rfl
  | cons h1 h2 ih =>
    simp only [List.length_cons, List.flatMap_cons, List.length_append, List.length_reverse, subdirPaths,
      List.length_map] at *
    rw [ih]
    omega

theorem Img.listsTree (h : Img rd content dev M Loc) (hdist : AllDistinct rd) {l0 : Listing}
    (h0 : Loc [] l0) (hd0 : l0.isDir = true) {D : List (Path × List FileEntry)}
    (hW : Walked rd [[]] D) (hn : (D.map Prod.fst).Nodup) : ListsTree dev (regionOf l0) rd content := by
  have hD : ∀ q, q ∈ D.map Prod.fst ↔ DirOf rd q := fun q => hW.mem_iff q
  have hlst : ∀ x ∈ D, rd x.1 = .ok x.2 := fun x hx => hW.readDir hx
  let all : List (Path × FileEntry) := D.flatMap (fun x => x.2.map (fun e => (x.1, e)))
  have hall : ∀ p e, (p, e) ∈ all ↔ EntryIn rd p e := by
    intro p e
    simp only [all, List.mem_flatMap, List.mem_map, EntryIn]
    constructor
    · rintro ⟨x, hx, e', he', h⟩
      cases h
      exact ⟨(hD _).1 (List.mem_map_of_mem hx), x.2, hlst x hx, he'⟩
    · rintro ⟨h1, l, h2, h3⟩
      obtain ⟨x, hx, rfl⟩ := List.mem_map.1 ((hD p).2 h1)
      have := hlst x hx
      rw [h2] at this
      cases this
      exact ⟨x, hx, e, h3, rfl⟩
  have hsub : ∀ {p : Path} {lst : List FileEntry}, DirOf rd p → rd p = .ok lst → lst.length ≤ all.length := by
    intro p lst h1 h2
    obtain ⟨x, hx, rfl⟩ := List.mem_map.1 ((hD p).2 h1)
    have := hlst x hx
    rw [h2] at this
    cases this
    have hs : (x.2.map (fun e => (x.1, e))).Sublist all := by
      obtain ⟨a, b, hab⟩ := List.append_of_mem hx
      simp only [all, hab, List.flatMap_append, List.flatMap_cons]
      exact (List.sublist_append_left _ _).trans (List.sublist_append_right _ _)
    simpa using hs.length_le
  have hcount : D.length ≤ all.length + 1 := by
    rw [walked_length hW]
    have : (D.flatMap (fun x => x.2.filter (·.isDir))).length ≤ all.length := by
      clear hall hsub hlst hD hn hW
      induction D with
      | nil => simp
      | cons x D ih =>
        simp only [all, List.flatMap_cons, List.length_append, List.length_map] at *
        have := List.length_filter_le (fun e : FileEntry => e.isDir) x.2
        omega
    simp only [List.length_cons, List.length_nil]
    omega
  have hu : under (D.map Prod.fst) [] = D.map Prod.fst := by
    unfold under
    rw [List.filter_eq_self]
    intro a _
    simp
  refine ⟨all, ?_, hall, ?_⟩
  · simp only [all]
    rw [List.nodup_iff_pairwise_ne, List.pairwise_flatMap]
    constructor
    · intro x hx
      rw [List.pairwise_map]
      have := hdist x.1 x.2 ((hD _).1 (List.mem_map_of_mem hx)) (hlst x hx)
      unfold DistinctNames at this
      rw [List.pairwise_map] at this
      refine this.imp ?_
      intro a b hab he
      cases he
      exact hab rfl
    · rw [List.nodup_iff_pairwise_ne, List.pairwise_map] at hn
      refine hn.imp ?_
      intro a b hab x hx y hy hxy
      subst hxy
      obtain ⟨_, _, rfl⟩ := List.mem_map.1 hx
      obtain ⟨_, _, h⟩ := List.mem_map.1 hy
      exact hab (congrArg Prod.fst h).symm
  · have key : ∀ wf, all.length < wf → ∃ L, (∀ fuel, all.length + 1 ≤ fuel →
        fileTreeLoop dev wf fuel [([], regionOf l0)] [] = .ok L) ∧ (L.map (direntKey dev)).Perm (all.map (entryKey content)) := by
      intro wf hwf
      obtain ⟨L, h1, h2⟩ := h.tree_loop hdist hn hD (wf := wf)
        (fun p lst k1 k2 => Nat.lt_of_le_of_lt (hsub k1 k2) hwf) _ [([], l0)] []
        (by intro x hx; rw [List.mem_singleton] at hx; subst hx; exact ⟨h0, hd0⟩) rfl
      simp only [List.map_cons, List.map_nil, List.flatMap_cons, List.flatMap_nil, List.append_nil, hu,
        List.length_map, List.reverse_nil, List.nil_append] at h1 h2
      refine ⟨L, fun fuel hf => h1 fuel (by omega), h2.trans (.of_eq ?_)⟩
      simp only [all]
      rw [List.flatMap_map, List.map_flatMap]
      clear h1 h2 hu hcount hsub hall hn hD hW
      induction D with
      | nil => rfl
      | cons x D ih =>
        rw [List.flatMap_cons, List.flatMap_cons, ih (fun y hy => hlst y (by simp [hy])) (by simp only [all, List.flatMap_cons, List.length_append] at hwf; omega)]
        congr 1
        simp only [keysOf, hlst x (by simp), List.map_map]
        rfl
    obtain ⟨L, h1, h2⟩ := key (all.length + 1) (by omega)
    refine ⟨L, ?_, h2⟩
    intro fuel hf
    have h3 := h1 (all.length + 1) (by omega)
    have := fileTreeLoop_mono (by rw [h3]; simp) fuel fuel (by omega : all.length + 1 ≤ fuel)
      (by omega : all.length + 1 ≤ fuel)
    exact this.trans h3

/-- The descriptor is found at sector 32. -/
theorem readVolume_holds {root : Region} (h : HoldsAt dev (2048 * 32) (VolDesc.new root).ser) :
    readVolume dev = .ok (VolDesc.new root) := by
  have hl := VolDesc.ser_length _ (VolDesc.new_wf root)
  have hr := h 0 2048 (by omega)
  have hs : slice (VolDesc.new root).ser 0 2048 = (VolDesc.new root).ser := by
    rw [slice, List.drop_zero, ← hl, List.take_length]
  rw [hs] at hr
  unfold readVolume
  have : sectorSize * 32 = 2048 * 32 + 0 := rfl
  rw [this, hr]
  simp only [VolDesc.deser_ser _ (VolDesc.new_wf root)]
  rw [if_pos]
  show (volumeMagic == volumeMagic && volumeMagic == volumeMagic) = true
  decide

/-- An image with a descriptor that stores the tree. -/
theorem Img.holdsTree (h : Img rd content dev M Loc) (hdist : AllDistinct rd) {l0 : Listing}
    (h0 : Loc [] l0) (hd0 : l0.isDir = true) {D : List (Path × List FileEntry)}
    (hW : Walked rd [[]] D) (hn : (D.map Prod.fst).Nodup)
    (hv : HoldsAt dev (2048 * 32) (VolDesc.new (regionOf l0)).ser) : HoldsTree dev rd content :=
  ⟨_, readVolume_holds hv, h.findsFiles hdist h0 hd0, h.findsDirs hdist h0 hd0,
    h.findsNothingElse hdist h0 hd0, h.listsTree hdist h0 hd0 hW hn⟩

end Xdvdfs
