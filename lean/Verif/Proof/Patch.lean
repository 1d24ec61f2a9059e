import Verif.Props.SameImage
import Verif.Props.Layout

/-!
# Images of sources that differ in the contents of files only
-/

namespace Xdvdfs

open Spec Props TabWriter

/-! ## Writes that differ in their data only -/

/-- Writes at the same places, of the same lengths, that agree on the byte `i` of the file. -/
def Alike (i : Nat) : List (Nat × Bytes) → List (Nat × Bytes) → Prop
  | [], [] => True
  | w :: W, w' :: W' => w.1 = w'.1 ∧ w.2.length = w'.2.length ∧ (w.1 ≤ i → w.2[i - w.1]? = w'.2[i - w.1]?) ∧ Alike i W W'
  | _, _ => False

theorem Alike.append {i : Nat} : ∀ {A A' B B' : List (Nat × Bytes)}, Alike i A A' → Alike i B B' →
    Alike i (A ++ B) (A' ++ B') := by
  intro A
  induction A with
  | nil =>
    intro A' B B' h1 h2
    cases A' with
    | nil => exact h2
    | cons => exact h1.elim
  | cons a A ih =>
    intro A' B B' h1 h2
    cases A' with
    | nil => exact h1.elim
    | cons a' A' => exact ⟨h1.1, h1.2.1, h1.2.2.1, ih h1.2.2.2 h2⟩

theorem Alike.refl {i : Nat} : ∀ (A : List (Nat × Bytes)), Alike i A A
  | [] => trivial
  | _ :: A => ⟨rfl, rfl, fun _ => rfl, Alike.refl A⟩

theorem Alike.flatMap {i : Nat} {f g : α → List (Nat × Bytes)} : ∀ {l : List α}, (∀ a ∈ l, Alike i (f a) (g a)) →
    Alike i (l.flatMap f) (l.flatMap g) := by
  intro l
  induction l with
  | nil => intro _; trivial
  | cons a l ih =>
    intro h
    rw [List.flatMap_cons, List.flatMap_cons]
    exact (h a List.mem_cons_self).append (ih (fun b hb => h b (List.mem_cons_of_mem _ hb)))

theorem Alike.apply {i : Nat} : ∀ {A A' : List (Nat × Bytes)} {img img' : Bytes}, Alike i A A' →
    img.length = img'.length → img[i]? = img'[i]? →
    (applyTrace img A).length = (applyTrace img' A').length ∧ (applyTrace img A)[i]? = (applyTrace img' A')[i]? := by
  intro A
  induction A with
  | nil =>
    intro A' img img' h h1 h2
    cases A' with
    | nil => exact ⟨h1, h2⟩
    | cons => exact h.elim
  | cons a A ih =>
    intro A' img img' h h1 h2
    cases A' with
    | nil => exact h.elim
    | cons a' A' =>
      obtain ⟨k1, k2, k3, k4⟩ := h
      have hnil : a.2 = [] ↔ a'.2 = [] := by
        rw [← List.length_eq_zero_iff, ← List.length_eq_zero_iff, k2]
      refine ih (img := writeAt img a.1 a.2) (img' := writeAt img' a'.1 a'.2) k4 ?_ ?_
      · rw [writeAt_length, writeAt_length, ← k1, h1, k2]
        simp only [hnil]
      · rw [writeAt_get, writeAt_get, ← k1, ← k2, h1, h2]
        simp only [hnil]
        by_cases hi : i < a.1
        · simp only [if_pos hi]
        · simp only [if_neg hi, k3 (by omega)]

/-! ## Images -/

theorem alike_recWrites {content content' : Path → Bytes} {i : Nat} {x : Rec}
    (h : ∀ l ∈ x.r.fileListing, l.isDir = false →
      (content (x.path ++ [l.name])).length = (content' (x.path ++ [l.name])).length ∧
      (2048 * l.sector ≤ i → (content (x.path ++ [l.name]))[i - 2048 * l.sector]? =
        (content' (x.path ++ [l.name]))[i - 2048 * l.sector]?)) :
    Alike i (recWrites content (recPart x)) (recWrites content' (recPart x)) := by
  refine ⟨rfl, rfl, fun _ => rfl, ?_⟩
  simp only [recPart]
  generalize x.r.fileListing = ls at h
  induction ls with
  | nil => trivial
  | cons l ls ih =>
    have ih := ih (fun m hm => h m (List.mem_cons_of_mem _ hm))
    cases hd : l.isDir with
    | true => simp only [List.filterMap_cons, hd, if_true]; exact ih
    | false =>
      simp only [List.filterMap_cons, hd, Bool.false_eq_true, if_false]
      obtain ⟨h1, h2⟩ := h l List.mem_cons_self hd
      refine ⟨rfl, h1, ?_, ih⟩
      simp only [sectorSize, Nat.mul_comm l.sector]
      exact h2

theorem alike_image {content content' : Path → Bytes} {i : Nat} {recs : List Rec} {rootSize : Nat}
    (h : ∀ x ∈ recs, ∀ l ∈ x.r.fileListing, l.isDir = false →
      (content (x.path ++ [l.name])).length = (content' (x.path ++ [l.name])).length ∧
      (2048 * l.sector ≤ i → (content (x.path ++ [l.name]))[i - 2048 * l.sector]? =
        (content' (x.path ++ [l.name]))[i - 2048 * l.sector]?)) :
    (imageOf content (recs.map recPart) rootSize).length = (imageOf content' (recs.map recPart) rootSize).length ∧
    (imageOf content (recs.map recPart) rootSize)[i]? = (imageOf content' (recs.map recPart) rootSize)[i]? := by
  have hb : (bodyOf content (recs.map recPart) rootSize).length = (bodyOf content' (recs.map recPart) rootSize).length ∧
      (bodyOf content (recs.map recPart) rootSize)[i]? = (bodyOf content' (recs.map recPart) rootSize)[i]? := by
    unfold bodyOf
    refine Alike.apply (Alike.append ?_ (Alike.refl _)) rfl rfl
    rw [List.flatMap_map, List.flatMap_map]
    exact Alike.flatMap (fun x hx => alike_recWrites (h x hx))
  unfold imageOf
  have hpad : padOf (bodyOf content (recs.map recPart) rootSize) = padOf (bodyOf content' (recs.map recPart) rootSize) := by
    unfold padOf; rw [hb.1]
  rw [hpad]
  exact (Alike.refl _).apply hb.1 hb.2

/-! ## Plans -/

theorem walked_same {rd : ReadDir} {ds : List Path} {D D' : List (Path × List FileEntry)} (h : Walked rd ds D)
    (h' : Walked rd ds D') : D = D' := by
  induction h generalizing D' with
  | nil => cases h'; rfl
  | cons k _ ih =>
    cases h' with
    | cons k' w =>
      rw [k] at k'
      cases k'
      rw [ih w]

theorem chain_unique : ∀ {recs recs' : List Rec} {ds : PathMap Nat} {n m m' : Nat}, Chain ds n recs m →
    Chain ds n recs' m' → recs.map (fun x => (x.path, x.w)) = recs'.map (fun x => (x.path, x.w)) →
    recs.map recPart = recs'.map recPart := by
  intro recs recs' ds n m m' h h' he
  have hp : recs.map Rec.path = recs'.map Rec.path := by
    have := congrArg (List.map Prod.fst) he
    simpa [List.map_map, Function.comp_def] using this
  induction recs generalizing recs' ds n with
  | nil =>
    cases recs' with
    | nil => rfl
    | cons => cases he
  | cons x xs ih =>
    cases recs' with
    | nil => cases he
    | cons y ys =>
      simp only [List.map_cons, List.cons.injEq, Prod.mk.injEq] at he hp
      obtain ⟨⟨he1, he2⟩, he3⟩ := he
      obtain ⟨a1, n1, a2, a3⟩ := h
      obtain ⟨b1, n2, b2, b3⟩ := h'
      rw [he2, b2] at a2
      simp only [Res.ok.injEq, Prod.mk.injEq] at a2
      obtain ⟨e1, rfl⟩ := a2
      rw [he1, b1] at a1
      have e2 := Option.some.inj a1
      rw [← e1, he1] at a3
      rw [List.map_cons, List.map_cons, ih a3 b3 he3 hp.2]
      simp only [recPart, he1, e1, e2]

theorem plan_unique {rd : ReadDir} {pts pts' : Path → Str} {D D' : List (Path × List FileEntry)}
    {M M' : PathMap TabWriter} {rootW rootW' : TabWriter} {rootSize rootSize' next next' : Nat} {recs recs' : List Rec}
    {n n' : Nat} (h : PlanShape rd pts D M rootW rootSize next recs n [])
    (h' : PlanShape rd pts' D' M' rootW' rootSize' next' recs' n' []) :
    recs.map recPart = recs'.map recPart ∧ rootSize = rootSize' := by
  have hD := walked_same h.walked h'.walked
  subst hD
  have hM := h.tables
  rw [h'.tables] at hM
  cases hM
  have hr := h.head
  rw [h'.head] at hr
  cases hr
  have hs := h.size
  rw [h'.size] at hs
  cases hs
  have ha := h.alloc
  rw [h'.alloc] at ha
  cases ha
  refine ⟨chain_unique h.chain h'.chain ?_, rfl⟩
  have := h.split
  rw [h'.split, List.append_nil, List.append_nil] at this
  exact this.symm

theorem placedAll_same {rootSize : Nat} {recs recs' : List Rec} (h : recs.map recPart = recs'.map recPart) :
    placedAll rootSize recs = placedAll rootSize recs' := by
  have e : ∀ recs : List Rec, recs.flatMap tagged =
      (recs.map recPart).flatMap (fun x => x.2.2.fileListing.map (fun l => (x.1 ++ [l.name], l))) := by
    intro recs
    rw [List.flatMap_map]
    rfl
  unfold placedAll
  rw [e, e, h]

/-! ## Places -/

theorem Packed.laidOut {fs : SourceFs} {content : Path → Bytes} {img : Bytes} {M : PathMap TabWriter}
    {D : List (Path × List FileEntry)} {pts : Path → Str} {rootW : TabWriter} {rootSize next : Nat} {recs : List Rec}
    {n' : Nat} (hS : PlanShape fs.readDir pts D M rootW rootSize next recs n' [])
    (P : Packed fs content img M (fun p l => (p, l) ∈ placedAll rootSize recs) (rootListing rootSize)) :
    LaidOut fs.readDir img ((placedAll rootSize recs).map Props.placeOf) := by
  have hI := P.image
  have hroot := P.root
  have hvol := P.volume
  have hrd : (rootListing rootSize).isDir = true := rfl
  refine ⟨?_, ?_, _, hvol, ?_, ?_⟩
  · rw [place_paths]; exact hS.paths_nodup
  · intro q
    rw [place_paths]
    constructor
    · intro hq
      obtain ⟨⟨q', l⟩, hl, rfl⟩ := List.mem_map.1 hq
      unfold placedAll at hl
      rcases List.mem_cons.1 hl with he | hm
      · exact .inl (congrArg Prod.fst he)
      · obtain ⟨y, hy, hm⟩ := List.mem_flatMap.1 hm
        simp only [tagged, List.mem_map] at hm
        obtain ⟨l', hl', he⟩ := hm
        cases he
        obtain ⟨lst, e, g1, g2, g3, _⟩ := hS.entry hy hl'
        exact .inr ⟨y.path, e, ⟨hS.dirOf hy, lst, g1, g2⟩, by rw [g3]⟩
    · rintro (rfl | ⟨p, e, ⟨hp, lst, g1, g2⟩, rfl⟩)
      · exact List.mem_map.2 ⟨_, hroot, rfl⟩
      · obtain ⟨x, hx, rfl⟩ := hS.recOf hp
        have hk : itemKey (itemOf M x.path e) ∈ x.r.fileListing.map listKey :=
          (hS.listingNames hx g1).mem_iff.2 (List.mem_map_of_mem g2)
        obtain ⟨l, hl, hke⟩ := List.mem_map.1 hk
        have hn : l.name = e.name := congrArg Prod.fst hke
        refine List.mem_map.2 ⟨(x.path ++ [l.name], l), ?_, by rw [← hn]⟩
        simp only [placedAll, List.mem_cons]
        right
        exact List.mem_flatMap.2 ⟨x, hx, List.mem_map.2 ⟨l, hl, rfl⟩⟩
  · intro x hx hxp
    obtain ⟨⟨p, l⟩, hl, rfl⟩ := List.mem_map.1 hx
    have hp : p = [] := hxp
    subst hp
    have := nodup_fst_inj hS.paths_nodup hl hroot
    subst this
    exact ⟨rfl, rfl, UInt32.toNat_ofNat_of_lt' hS.rootLt⟩
  · intro x hx p e fuel he hxp hpl hfu
    obtain ⟨⟨q, l⟩, hl, rfl⟩ := List.mem_map.1 hx
    have hq : q = p ++ [e.name] := hxp
    subst hq
    obtain ⟨d, l', g1, g2, g3, g4, g5, g6⟩ := hI.entry_lookup hS.allDistinct hroot hrd he
      (show SamePath (p ++ [e.name]) (p ++ [e.name]) from rfl) hpl hfu
    have := nodup_fst_inj hS.paths_nodup g5 hl
    subst this
    refine ⟨d, g1, by rw [g4, ← g6]; rfl, g6, ?_, ?_⟩
    · rw [g3]; exact UInt32.toNat_ofNat_of_lt' (hI.small _ _ g5).1
    · rw [g3]; exact UInt32.toNat_ofNat_of_lt' (hI.small _ _ g5).2

theorem PackedBy.laidOut {fs : SourceFs} {content : Path → Bytes} {img : Bytes} {M : PathMap TabWriter}
    {Loc : Path → Listing → Prop} {l0 : Listing} {D : List (Path × List FileEntry)} {rootW : TabWriter}
    {rootSize next : Nat} {recs : List Rec} {n' : Nat}
    (P : PackedBy fs content img M Loc l0 D rootW rootSize next recs n') :
    LaidOut fs.readDir img ((placedAll rootSize recs).map Props.placeOf) := by
  have h := P.packed
  rw [P.loc, P.rootAt] at h
  exact h.laidOut P.shape

theorem PackedBy.files_at {fs : SourceFs} {content : Path → Bytes} {img : Bytes} {M : PathMap TabWriter}
    {Loc : Path → Listing → Prop} {l0 : Listing} {D : List (Path × List FileEntry)} {rootW : TabWriter}
    {rootSize next : Nat} {recs : List Rec} {n' : Nat}
    (P : PackedBy fs content img M Loc l0 D rootW rootSize next recs n') {x : Place}
    (hx : x ∈ (placedAll rootSize recs).map Props.placeOf) (hd : x.isDir = false) :
    (content x.path).length = x.size ∧ HoldsAt (fileDev img) x.first (content x.path) := by
  have hI := P.packed.image
  rw [P.loc] at hI
  obtain ⟨⟨p, l⟩, hl, rfl⟩ := List.mem_map.1 hx
  exact hI.files p l hl hd

end Xdvdfs
