import Verif.Proof.TableTotal
import Verif.Proof.Extents

/-!
# Packing returns
-/

namespace Xdvdfs

open TabWriter Spec

/-! ## Scanning terminates -/

/-- Scanning from a stack fails with an error. -/
inductive WalkFails (rd : ReadDir) (e : Err) : List Path → Prop
  | here {d ds} : rd d = .err e → WalkFails rd e (d :: ds)
  | next {d ds l} : rd d = .ok l → WalkFails rd e ((subdirPaths d l).reverse ++ ds) →
      WalkFails rd e (d :: ds)

theorem WalkFails.res {rd : ReadDir} {e : Err} {stack : List Path} (h : WalkFails rd e stack) :
    ∃ n, ∀ fuel, n ≤ fuel → ∀ out, (dirTreeLoopP rd fuel stack out).res = .err e := by
  induction h with
  | @here d ds h =>
    refine ⟨1, fun fuel hf out => ?_⟩
    obtain ⟨f, rfl⟩ : ∃ f, fuel = f + 1 := ⟨fuel - 1, by omega⟩
    simp only [dirTreeLoopP, h]
    rfl
  | @next d ds l h1 h2 ih =>
    obtain ⟨n, hn⟩ := ih
    refine ⟨n + 1, fun fuel hf out => ?_⟩
    obtain ⟨f, rfl⟩ : ∃ f, fuel = f + 1 := ⟨fuel - 1, by omega⟩
    simp only [dirTreeLoopP, h1]
    have := hn f (by omega) ((d, l) :: out)
    show (dirTreeLoopP rd f _ _).res = _
    exact this

theorem WalkFails.append {rd : ReadDir} {e : Err} {a : List Path} (h : WalkFails rd e a) (b : List Path) :
    WalkFails rd e (a ++ b) := by
  induction h with
  | here h => exact .here h
  | @next d ds l h1 h2 ih => exact .next h1 (show WalkFails rd e (_ ++ (ds ++ b)) by rw [← List.append_assoc]; exact ih)

theorem Walked.append {rd : ReadDir} {a b : List Path} {D E : List (Path × List FileEntry)}
    (h : Walked rd a D) (h' : Walked rd b E) : Walked rd (a ++ b) (D ++ E) := by
  induction h with
  | nil => exact h'
  | @cons d ds l D h1 h2 ih =>
    exact .cons h1 (show Walked rd (_ ++ (ds ++ b)) (D ++ E) by rw [← List.append_assoc]; exact ih)

theorem Walked.append_fails {rd : ReadDir} {e : Err} {a b : List Path} {D : List (Path × List FileEntry)}
    (h : Walked rd a D) (h' : WalkFails rd e b) : WalkFails rd e (a ++ b) := by
  induction h with
  | nil => exact h'
  | @cons d ds l D h1 h2 ih =>
    exact .next h1 (show WalkFails rd e (_ ++ (ds ++ b)) by rw [← List.append_assoc]; exact ih)

def Settles (rd : ReadDir) (stack : List Path) : Prop :=
  (∃ D, Walked rd stack D) ∨ ∃ e, WalkFails rd e stack

theorem Settles.append {rd : ReadDir} {a b : List Path} (h : Settles rd a) (h' : Settles rd b) :
    Settles rd (a ++ b) := by
  rcases h with ⟨D, h⟩ | ⟨e, h⟩
  · rcases h' with ⟨E, h'⟩ | ⟨e, h'⟩
    · exact .inl ⟨_, h.append h'⟩
    · exact .inr ⟨e, h.append_fails h'⟩
  · exact .inr ⟨e, h.append b⟩

theorem Settles.all {rd : ReadDir} : ∀ {stack : List Path}, (∀ p ∈ stack, Settles rd [p]) → Settles rd stack := by
  intro stack
  induction stack with
  | nil => intro _; exact .inl ⟨[], .nil⟩
  | cons p ps ih =>
    intro h
    exact Settles.append (a := [p]) (h p (by simp)) (ih (fun q hq => h q (by simp [hq])))

theorem settles_of_finite {rd : ReadDir} (hret : ∀ p, DirOf rd p → (rd p).Returns) {N : Nat}
    (hN : ∀ p, DirOf rd p → p.length ≤ N) : ∀ (k : Nat) (p : Path), DirOf rd p → N ≤ p.length + k →
    Settles rd [p] := by
  intro k
  induction k with
  | zero =>
    intro p hp hk
    cases h : rd p with
    | ok l =>
      have hs : subdirPaths p l = [] := by
        apply List.eq_nil_iff_forall_not_mem.2
        intro q hq
        obtain ⟨e, he, hd, rfl⟩ := mem_subdirPaths.1 hq
        have := hN _ (.sub hp h he hd)
        simp at this
        omega
      exact .inl ⟨[(p, l)], .cons h (by rw [hs]; exact .nil)⟩
    | err e => exact .inr ⟨e, .here h⟩
    | panic => exact absurd h (hret p hp).1
    | hang => exact absurd h (hret p hp).2
  | succ k ih =>
    intro p hp hk
    cases h : rd p with
    | ok l =>
      have hs : Settles rd ((subdirPaths p l).reverse ++ []) := by
        rw [List.append_nil]
        apply Settles.all
        intro q hq
        obtain ⟨e, he, hd, rfl⟩ := mem_subdirPaths.1 (List.mem_reverse.1 hq)
        exact ih _ (.sub hp h he hd) (by simp; omega)
      rcases hs with ⟨D, hs⟩ | ⟨e, hs⟩
      · exact .inl ⟨_, .cons h hs⟩
      · exact .inr ⟨e, .next h hs⟩
    | err e => exact .inr ⟨e, .here h⟩
    | panic => exact absurd h (hret p hp).1
    | hang => exact absurd h (hret p hp).2

theorem DirOf.parent {rd : ReadDir} {p : Path} (h : DirOf rd p) :
    p = [] ∨ ∃ q l e, DirOf rd q ∧ rd q = .ok l ∧ e ∈ l ∧ e.isDir = true ∧ p = q ++ [e.name] := by
  cases h with
  | root => exact .inl rfl
  | sub h1 h2 h3 h4 => exact .inr ⟨_, _, _, h1, h2, h3, h4, rfl⟩

theorem le_sum_of_mem {l : List Nat} {x : Nat} (h : x ∈ l) : x ≤ l.sum := by
  induction l with
  | nil => simp at h
  | cons y l ih =>
    rcases List.mem_cons.1 h with rfl | h
    · simp
    · have := ih h; simp; omega

theorem settles {rd : ReadDir} (hret : ∀ p, DirOf rd p → (rd p).Returns) {tree : List (Path × List FileEntry)}
    (ht : TreeOf rd tree) : Settles rd [[]] := by
  refine settles_of_finite hret (N := 1 + (tree.map (fun x => x.1.length)).sum) ?_ _ [] .root
    (Nat.le_add_left _ _)
  intro p hp
  rcases DirOf.parent hp with rfl | ⟨q, l, e, h1, h2, _, _, rfl⟩
  · simp
  · have : q.length ≤ (tree.map (fun x => x.1.length)).sum :=
      le_sum_of_mem (List.mem_map.2 ⟨(q, l), (ht.2 q l).2 ⟨h1, h2⟩, rfl⟩)
    simp; omega

/-! ## Building all tables returns -/

/-- All tables are far below 4 GiB. -/
def SizedLe (M : PathMap TabWriter) : Prop :=
  ∀ p w, M.get p = some w → ∃ n, w.dirtabSize = .ok n ∧ n + 2047 < 2 ^ 32

theorem SizedLe.sized {M : PathMap TabWriter} (h : SizedLe M) : Sized M := by
  intro p w hw
  obtain ⟨n, h1, h2⟩ := h p w hw
  exact ⟨n, h1, by omega⟩

theorem itemOf_small {M : PathMap TabWriter} (hM : SizedLe M) {p : Path} {e : FileEntry}
    (h : EntryOK M p e) : (itemOf M p e).storedSize < 2 ^ 32 := by
  cases hd : e.isDir with
  | false =>
    simp only [Item.storedSize, itemOf, hd, Bool.false_eq_true, if_false]
    exact (UInt32.ofNat e.len).toNat_lt
  | true =>
    obtain ⟨w, hw⟩ := Option.isSome_iff_exists.1 (h.1 hd)
    obtain ⟨n, h1, h2⟩ := hM _ _ hw
    simp only [Item.storedSize, itemOf, hd, if_true, subSize, hw, h1]
    rw [UInt32.toNat_ofNat_of_lt' (show n < 2 ^ 32 by omega)]
    have := roundUp_spec n
    omega

theorem addEntries_cases {M : PathMap TabWriter} (hM : SizedLe M) {p : Path} : ∀ {es : List FileEntry}
    {w : TabWriter} {done : List Item} {T : ITree DirData}, WInv w done T →
    (∀ e ∈ es, e.isDir = true → (M.get (p ++ [e.name])).isSome = true) →
    (∃ w' T' items, addEntries M p w es = .ok w' ∧ WInv w' items T' ∧ items.length = done.length + es.length) ∨
    ∃ e, addEntries M p w es = .err e := by
  intro es
  induction es with
  | nil => intro w done T h _; exact .inl ⟨w, T, done, rfl, h, by simp⟩
  | cons e es ih =>
    intro w done T h hd
    simp only [addEntries]
    by_cases hok : EntryOK M p e
    · rw [addEntry_eq hM.sized hok]
      rcases addItem_spec h (itemOf M p e) with ⟨w2, T2, h1, h2, _⟩ | ⟨h1, _⟩ | ⟨h1, _⟩ | ⟨h1, h2⟩
      · rw [h1, Res.ok_bind]
        rcases ih h2 (fun x hx => hd x (by simp [hx])) with ⟨w', T', items, h3, h4, h5⟩ | h3
        · refine .inl ⟨w', T', items, h3, h4, ?_⟩
          simp at h5 ⊢; omega
        · exact .inr h3
      · exact .inr ⟨_, by rw [h1]; rfl⟩
      · exact .inr ⟨_, by rw [h1]; rfl⟩
      · have := itemOf_small hM hok; omega
    · right
      have hf : e.isDir = false := by
        cases hd' : e.isDir with
        | false => rfl
        | true =>
          refine absurd ?_ hok
          exact ⟨fun _ => hd e (by simp) hd', fun h => by rw [hd'] at h; cases h⟩
      have hl : ¬ e.len < 2 ^ 32 := fun h => hok ⟨fun h' => (by rw [hf] at h'; cases h'), fun _ => h⟩
      refine ⟨.fileTooLarge, ?_⟩
      unfold addEntry
      rw [hf, if_neg (by simp), if_neg hl]
      rfl

theorem sizedLe_insert {M : PathMap TabWriter} (hM : SizedLe M) {p : Path} {w : TabWriter}
    (h : ∃ n, w.dirtabSize = .ok n ∧ n + 2047 < 2 ^ 32) : SizedLe (M.insert p w) := by
  intro q v hq
  rw [PathMap.get_insert] at hq
  split at hq
  · cases hq; exact h
  · exact hM q v hq

/-- Every subdirectory is in the map or comes before its parent in the list. -/
def SubsBefore (M : PathMap TabWriter) (D : List (Path × List FileEntry)) : Prop :=
  ∀ pre p l post, D = pre ++ (p, l) :: post → ∀ e ∈ l, e.isDir = true →
    (M.get (p ++ [e.name])).isSome = true ∨ p ++ [e.name] ∈ pre.map Prod.fst

theorem SubsBefore.step {M : PathMap TabWriter} {p : Path} {l : List FileEntry}
    {D : List (Path × List FileEntry)} (h : SubsBefore M ((p, l) :: D)) (w : TabWriter) :
    SubsBefore (M.insert p w) D := by
  intro pre q l' post he e hem hd
  rw [PathMap.get_insert]
  rcases h ((p, l) :: pre) q l' post (by rw [he]; rfl) e hem hd with h | h
  · left; split
    · rfl
    · exact h
  · rw [List.map_cons, List.mem_cons] at h
    rcases h with h | h
    · left; rw [if_pos h]; rfl
    · exact .inr h

theorem SubsBefore.head {M : PathMap TabWriter} {p : Path} {l : List FileEntry}
    {D : List (Path × List FileEntry)} (h : SubsBefore M ((p, l) :: D)) :
    ∀ e ∈ l, e.isDir = true → (M.get (p ++ [e.name])).isSome = true := by
  intro e he hd
  rcases h [] p l D rfl e he hd with h | h
  · exact h
  · simp at h

theorem tablesLoop_cases : ∀ {D : List (Path × List FileEntry)} {M : PathMap TabWriter},
    (∀ x ∈ D, 544 * x.2.length + 2048 < 2 ^ 32) → SizedLe M → SubsBefore M D →
    (∃ M', tablesLoop D M = .ok M') ∨ ∃ e, tablesLoop D M = .err e := by
  intro D
  induction D with
  | nil => intro M _ _ _; exact .inl ⟨M, rfl⟩
  | cons y D ih =>
    obtain ⟨p, l⟩ := y
    intro M hl hM hs
    simp only [tablesLoop]
    rcases addEntries_cases hM (es := l) WInv.new hs.head with ⟨w', T', items, h1, h2, h3⟩ | ⟨e, h1⟩
    · rw [h1, Res.ok_bind]
      simp only [List.length_nil, Nat.zero_add] at h3
      have hlp := hl (p, l) (by simp)
      simp only at hlp
      rcases computeSize_cases h2 (by rw [h3]; omega) with ⟨s, h4, h5⟩ | ⟨h4, _⟩
      · rw [h4, Res.ok_bind]
        apply ih (fun x hx => hl x (by simp [hx])) (sizedLe_insert hM ?_) (hs.step _)
        unfold dirtabSize
        split
        · exact ⟨2048, rfl, by omega⟩
        · exact ⟨s, rfl, by rw [h3] at h5; omega⟩
      · exact .inr ⟨_, by rw [h4]; rfl⟩
    · exact .inr ⟨e, by rw [h1]; rfl⟩

theorem tablesLoop_succeeds : ∀ {D : List (Path × List FileEntry)} {M : PathMap TabWriter},
    (∀ x ∈ D, 544 * x.2.length + 2048 < 2 ^ 32) → (∀ x ∈ D, StorableListing x.2) → SizedLe M →
    SubsBefore M D → ∃ M', tablesLoop D M = .ok M' := by
  intro D
  induction D with
  | nil => intro M _ _ _ _; exact ⟨M, rfl⟩
  | cons y D ih =>
    obtain ⟨p, l⟩ := y
    intro M hl hst hM hs
    have hlp := hl (p, l) (by simp)
    have hsp := hst (p, l) (by simp)
    simp only at hlp hsp
    have hok : ∀ e ∈ l, EntryOK M p e := fun e he => ⟨hs.head e he, (hsp.2 e he).2.2⟩
    obtain ⟨w, hw⟩ := buildTable_succeeds (items := l.map (itemOf M p))
      (by
        intro it hit
        obtain ⟨e, he, rfl⟩ := List.mem_map.1 hit
        exact itemOf_small hM (hok e he))
      (by rw [List.length_map]; omega)
      (by
        intro it hit
        obtain ⟨e, he, rfl⟩ := List.mem_map.1 hit
        exact ⟨(hsp.2 e he).1, (hsp.2 e he).2.1⟩)
      (by rw [Item.names_map]; exact hsp.1)
    have hw' := hw
    unfold buildTable at hw
    rw [← addEntries_eq hM.sized hok, Res.bind_eq_ok] at hw
    obtain ⟨w0, h1, h2⟩ := hw
    simp only [tablesLoop, h1, Res.ok_bind, h2]
    apply ih (fun x hx => hl x (by simp [hx])) (fun x hx => hst x (by simp [hx])) (sizedLe_insert hM ?_)
      (hs.step _)
    obtain ⟨n, k1, k2, k3⟩ := buildTable_size_le hw' (by rw [List.length_map]; omega)
    rw [List.length_map] at k3
    exact ⟨n, k1, by omega⟩

theorem Walked.subsBefore {rd : ReadDir} {stack : List Path} {D : List (Path × List FileEntry)}
    (h : Walked rd stack D) (M : PathMap TabWriter) : SubsBefore M D.reverse := by
  intro pre p l post he e hem hd
  right
  have : D = post.reverse ++ (p, l) :: pre.reverse := by
    have := congrArg List.reverse he
    simpa using this
  have := (h.subs _ _ _ _ this).2 e hem hd
  simpa using this

/-! ## Writing all tables returns -/

/-- The items of the table at a path. -/
def itemsAt (rd : ReadDir) (M : PathMap TabWriter) (p : Path) : List Item :=
  match rd p with
  | .ok l => l.map (itemOf M p)
  | _ => []

theorem addSubs_listed {M : PathMap TabWriter} {p : Path} {l : List FileEntry} {w : TabWriter}
    {r : DiskRepr} {n n' : Nat} (hb : buildTable (l.map (itemOf M p)) = .ok w)
    (hr : w.diskRepr n = .ok (r, n')) {e : FileEntry} (he : e ∈ l) (hd : e.isDir = true) :
    ∃ x ∈ r.fileListing, x.isDir = true ∧ x.name = e.name := by
  have h1 := (table_listing hb hr).1
  have h2 : itemKey (itemOf M p e) ∈ r.fileListing.map listKey := by
    rw [h1.mem_iff, List.map_map]
    exact List.mem_map.2 ⟨e, he, rfl⟩
  obtain ⟨x, hx, hk⟩ := List.mem_map.1 h2
  simp only [listKey, itemKey, Prod.mk.injEq] at hk
  exact ⟨x, hx, by rw [hk.2.2]; exact hd, hk.1⟩

theorem packDirsP_cases {rd : ReadDir} {M : PathMap TabWriter} (hT : TabsOK rd M) (pts : Path → Str) :
    ∀ {M2 : PathMap TabWriter} {ds : PathMap Nat} {next : Nat}, (∀ x ∈ M2, M.get x.1 = some x.2) →
    M2.Sorted →
    (∀ x ∈ M2, (ds.get x.1).isSome = true ∨ ∃ q l e, x.1 = q ++ [e.name] ∧ q ∈ M2.map Prod.fst ∧
      rd q = .ok l ∧ e ∈ l ∧ e.isDir = true) →
    next + (M2.map (fun x => itemSectors (itemsAt rd M x.1))).sum < 2 ^ 32 →
    (packDirsP pts M2 ds next).res = .ok () ∨
    ((packDirsP pts M2 ds next).res = .err .tooManyEntries ∧
      ∃ x ∈ M2, ∃ n, x.2.dirtabSize = .ok n ∧ 262144 < n) := by
  intro M2
  induction M2 with
  | nil => intro ds next _ _ _ _; exact .inl rfl
  | cons y M2 ih =>
    obtain ⟨p, w⟩ := y
    intro ds next hget hsort hds hsum
    obtain ⟨hs1, hs2⟩ := List.pairwise_cons.1 hsort
    have hp : (ds.get p).isSome = true := by
      rcases hds (p, w) (by simp) with h | ⟨q, l, e, h1, h2, _⟩
      · exact h
      · simp only at h1
        have hq : cmpPath q p = .lt := by rw [h1]; exact cmpPath_snoc _ _
        rw [List.map_cons, List.mem_cons] at h2
        rcases h2 with h2 | h2
        · simp only at h2
          rw [h2, (cmpPath_eq_iff _ _).2 rfl] at hq; cases hq
        · obtain ⟨z, hz, hze⟩ := List.mem_map.1 h2
          have h3 := hs1 z hz
          simp only at h3
          rw [hze] at h3
          have h4 := cmpPath_lt_trans h3 hq
          rw [(cmpPath_eq_iff _ _).2 rfl] at h4; cases h4
    obtain ⟨s, hs⟩ := Option.isSome_iff_exists.1 hp
    obtain ⟨l, k1, k2, k3⟩ := hT.built p w (hget (p, w) (by simp))
    have hit : itemsAt rd M p = l.map (itemOf M p) := by unfold itemsAt; rw [k1]
    simp only [List.map_cons, List.sum_cons, hit] at hsum
    simp only [packDirsP, hs]
    rcases diskRepr_cases k3 (next := next) (by omega) with ⟨r, hr⟩ | ⟨hr, n, hn⟩
    · rw [hr]
      have := ih (ds := addSubs p ds r.fileListing) (next := next + itemSectors (l.map (itemOf M p)))
        (fun x hx => hget x (by simp [hx])) hs2 (by
          intro x hx
          rcases hds x (by simp [hx]) with h | ⟨q, l', e, h1, h2, h3, h4, h5⟩
          · exact .inl (addSubs_mono (.inl h))
          · rw [List.map_cons, List.mem_cons] at h2
            rcases h2 with h2 | h2
            · simp only at h2
              subst h2
              rw [k1] at h3
              cases h3
              obtain ⟨z, hz, hz1, hz2⟩ := addSubs_listed k3 hr h4 h5
              exact .inl (addSubs_mono (.inr ⟨z, hz, hz1, by rw [h1, hz2]⟩))
            · exact .inr ⟨q, l', e, h1, h2, h3, h4, h5⟩) (by omega)
      rcases this with h | ⟨h, x, hx, hn⟩
      · exact .inl h
      · exact .inr ⟨h, x, by simp [hx], hn⟩
    · right
      rw [hr]
      exact ⟨rfl, (p, w), by simp, n, hn⟩

/-! ## Sectors needed -/

theorem Walked.perm_subs {rd : ReadDir} {stack : List Path} {D : List (Path × List FileEntry)}
    (h : Walked rd stack D) :
    (D.map Prod.fst).Perm (stack ++ D.flatMap (fun x => subdirPaths x.1 x.2)) := by
  induction h with
  | nil => exact .refl _
  | @cons d ds l D h1 h2 ih =>
    simp only [List.map_cons, List.cons_append, List.flatMap_cons]
    refine (ih.cons d).trans (List.Perm.cons d ?_)
    rw [List.append_assoc]
    refine ((List.reverse_perm _).append_right _).trans ?_
    rw [← List.append_assoc, ← List.append_assoc]
    exact (List.perm_append_comm).append_right _

theorem sum_flatMap {α β : Type} (f : α → List β) (g : β → Nat) (l : List α) :
    ((l.flatMap f).map g).sum = (l.map (fun x => ((f x).map g).sum)).sum := by
  induction l with
  | nil => rfl
  | cons x l ih => simp [List.flatMap_cons, ih]

theorem sum_add {α : Type} (f g : α → Nat) (l : List α) :
    (l.map (fun x => f x + g x)).sum = (l.map f).sum + (l.map g).sum := by
  induction l with
  | nil => rfl
  | cons x l ih => simp [ih]; omega

theorem sum_le {α : Type} {f g : α → Nat} {l : List α} (h : ∀ x ∈ l, f x ≤ g x) :
    (l.map f).sum ≤ (l.map g).sum := by
  induction l with
  | nil => simp
  | cons x l ih =>
    have := ih (fun y hy => h y (by simp [hy]))
    have := h x (by simp)
    simp; omega

/-- Sectors of the table at a path. -/
def tabSectors (M : PathMap TabWriter) (p : Path) : Nat := secs (roundUp (subSize M p).toNat)

theorem itemSectors_listing {M : PathMap TabWriter} {p : Path} {l : List FileEntry}
    (h : ∀ e ∈ l, e.isDir = false → e.len < 2 ^ 32) :
    itemSectors (l.map (itemOf M p)) = ((l.filter (fun e => !e.isDir)).map (fun e => sectorsFor e.len)).sum +
      ((subdirPaths p l).map (tabSectors M)).sum := by
  unfold itemSectors subdirPaths
  induction l with
  | nil => rfl
  | cons e l ih =>
    have := ih (fun x hx => h x (by simp [hx]))
    simp only [List.map_cons, List.sum_cons, this, List.filter_cons]
    cases hd : e.isDir with
    | true =>
      have : secs (itemOf M p e).storedSize = tabSectors M (fromBase p e.name) := by
        simp [Item.storedSize, itemOf, hd, tabSectors, fromBase]
      rw [this]
      simp
      omega
    | false =>
      have : secs (itemOf M p e).storedSize = sectorsFor e.len := by
        simp only [Item.storedSize, itemOf, hd, Bool.false_eq_true, if_false]
        rw [UInt32.toNat_ofNat_of_lt' (h e (by simp) hd), secs_eq_sectorsFor]
      rw [this]
      simp
      omega

theorem tabSectors_le {rd : ReadDir} {M : PathMap TabWriter} (hT : TabsOK rd M) {p : Path} {l : List FileEntry}
    (hg : (M.get p).isSome = true) (hl : rd p = .ok l) (hs : 544 * l.length + 2048 < 2 ^ 32) :
    tabSectors M p ≤ 544 * l.length / 2048 + 1 := by
  obtain ⟨w, hw⟩ := Option.isSome_iff_exists.1 hg
  obtain ⟨l', k1, k2, k3⟩ := hT.built p w hw
  rw [hl] at k1
  cases k1
  obtain ⟨n, h1, h2, h3⟩ := buildTable_size_le k3 (by rw [List.length_map]; omega)
  rw [List.length_map] at h2 h3
  unfold tabSectors subSize
  simp only [hw, h1]
  rw [UInt32.toNat_ofNat_of_lt' (show n < 2 ^ 32 by omega)]
  unfold secs roundUp
  split <;> omega

theorem Walked.perm_tree {rd : ReadDir} {D tree : List (Path × List FileEntry)} (hW : Walked rd [[]] D)
    (hnd : (D.map Prod.fst).Nodup) (ht : TreeOf rd tree) : D.Perm tree := by
  have hD : D.Nodup := by
    rw [List.nodup_iff_pairwise_ne] at hnd ⊢
    rw [List.pairwise_map] at hnd
    exact hnd.imp (fun h1 h2 => h1 (by rw [h2]))
  have hTn : tree.Nodup := by
    have := ht.1
    rw [List.nodup_iff_pairwise_ne] at this ⊢
    rw [List.pairwise_map] at this
    exact this.imp (fun h1 h2 => h1 (by rw [h2]))
  rw [List.perm_ext_iff_of_nodup hD hTn]
  rintro ⟨p, l⟩
  rw [ht.2]
  constructor
  · intro hm
    exact ⟨(hW.mem_iff p).1 (List.mem_map_of_mem (f := Prod.fst) hm), hW.readDir hm⟩
  · rintro ⟨h1, h2⟩
    obtain ⟨x, hx, rfl⟩ := List.mem_map.1 ((hW.mem_iff p).2 h1)
    have := hW.readDir (p := x.1) (l := x.2) hx
    rw [h2] at this
    cases this
    exact hx

/-- The sectors needed for the whole image. -/
theorem sectors_fit {rd : ReadDir} {D tree : List (Path × List FileEntry)} {M : PathMap TabWriter}
    (hW : Walked rd [[]] D) (h : tablesLoop D.reverse [] = .ok M) (ht : TreeOf rd tree) (hF : Fits tree)
    {rootSize : Nat} {rootW : TabWriter} (hroot : M.get [] = some rootW) (hsz : rootW.dirtabSize = .ok rootSize) :
    33 + secs rootSize + (M.map (fun x => itemSectors (itemsAt rd M x.1))).sum < 2 ^ 32 := by
  obtain ⟨hT, _, hnd, hk⟩ := tables_ok hW h
  have hDtree : D.Perm tree := hW.perm_tree hnd ht
  have hsmall : ∀ x ∈ D, 544 * x.2.length + 2048 < 2 ^ 32 := fun x hx => hF.2 x (hDtree.mem_iff.1 hx)
  have hkeys : (M.map (fun x => itemSectors (itemsAt rd M x.1))).sum
      = (D.map (fun x => itemSectors (x.2.map (itemOf M x.1)))).sum := by
    have hp := (hT.keys_perm hW hnd hk).map (fun p => itemSectors (itemsAt rd M p))
    rw [List.map_map, List.map_map] at hp
    refine (List.Perm.sum_nat hp).trans ?_
    congr 1
    apply List.map_congr_left
    intro x hx
    have := hW.readDir (p := x.1) (l := x.2) hx
    simp only [Function.comp, itemsAt, this]
  have hsplit : (D.map (fun x => itemSectors (x.2.map (itemOf M x.1)))).sum
      = (D.map (fun x => ((x.2.filter (fun e => !e.isDir)).map (fun e => sectorsFor e.len)).sum)).sum
        + (D.map (fun x => ((subdirPaths x.1 x.2).map (tabSectors M)).sum)).sum := by
    rw [← sum_add]
    congr 1
    apply List.map_congr_left
    intro x hx
    apply itemSectors_listing
    intro e he hd
    obtain ⟨w, hw⟩ := Option.isSome_iff_exists.1 ((hk x.1).2 ((hW.mem_iff x.1).1 (List.mem_map_of_mem hx)))
    obtain ⟨l, k1, k2, k3⟩ := hT.built _ _ hw
    rw [hW.readDir (p := x.1) (l := x.2) hx] at k1
    cases k1
    exact (k2 e he).2 hd
  have hsub : tabSectors M [] + (D.map (fun x => ((subdirPaths x.1 x.2).map (tabSectors M)).sum)).sum
      = (D.map (fun x => tabSectors M x.1)).sum := by
    have hp := hW.perm_subs.map (tabSectors M)
    have := List.Perm.sum_nat hp
    rw [List.map_append, List.sum_append, sum_flatMap, List.map_map] at this
    simp only [List.map_cons, List.map_nil, List.sum_cons, List.sum_nil, Nat.add_zero] at this
    exact this.symm
  have hle : (D.map (fun x => tabSectors M x.1)).sum ≤ (D.map (fun x => 544 * x.2.length / 2048 + 1)).sum := by
    apply sum_le
    intro x hx
    exact tabSectors_le hT ((hk x.1).2 ((hW.mem_iff x.1).1 (List.mem_map_of_mem hx)))
      (hW.readDir (p := x.1) (l := x.2) hx) (hsmall x hx)
  have hrs : secs rootSize ≤ tabSectors M [] := by
    obtain ⟨n, h1, h2⟩ := hT.sized _ _ hroot
    rw [hsz] at h1
    cases h1
    unfold tabSectors subSize
    simp only [hroot, hsz]
    rw [UInt32.toNat_ofNat_of_lt' h2]
    unfold secs roundUp
    split <;> split <;> omega
  have htot := List.Perm.sum_nat (hDtree.map (fun x => dirSectors x.2))
  have hF1 := hF.1
  rw [← htot] at hF1
  have hds : (D.map (fun x => dirSectors x.2)).sum = (D.map (fun x => 544 * x.2.length / 2048 + 1)).sum
      + (D.map (fun x => ((x.2.filter (fun e => !e.isDir)).map (fun e => sectorsFor e.len)).sum)).sum := by
    rw [← sum_add]; rfl
  omega

/-! ## The whole plan returns -/

theorem plan_cases {rd : ReadDir} (pts : Path → Str) (hret : ∀ p, DirOf rd p → (rd p).Returns)
    {tree : List (Path × List FileEntry)} (ht : TreeOf rd tree) (hF : Fits tree) :
    ∃ n, ∀ fuel, n ≤ fuel →
      (createP rd pts fuel).res = .ok () ∨ ∃ e, (createP rd pts fuel).res = .err e := by
  rcases settles hret ht with ⟨D, hW⟩ | ⟨e, hW⟩
  · refine ⟨D.length, fun fuel hf => ?_⟩
    have hsmall : ∀ x ∈ D.reverse, 544 * x.2.length + 2048 < 2 ^ 32 := by
      intro x hx
      rw [List.mem_reverse] at hx
      exact hF.2 x ((ht.2 x.1 x.2).2 ⟨(hW.mem_iff x.1).1 (List.mem_map_of_mem hx), hW.readDir hx⟩)
    have h1 := dirTreeLoopP_of_walked hW hf (out := [])
    simp only [List.reverse_nil, List.nil_append] at h1
    unfold createP
    rw [(Pl.bind_ops_ok (by rw [h1])).2]
    rcases tablesLoop_cases hsmall (M := []) (by intro p w h; simp [PathMap.get] at h) (hW.subsBefore _)
      with ⟨M, hM⟩ | ⟨e, hM⟩
    · obtain ⟨rootW, hh⟩ := tables_head hW hM
      obtain ⟨hT, _, _, hk⟩ := tables_ok hW hM
      have hroot : M.get [] = some rootW := PathMap.get_of_mem hT.sorted (List.mem_of_mem_head? hh)
      obtain ⟨rootSize, hsz, hlt⟩ := hT.sized _ _ hroot
      have hfit := sectors_fit hW hM ht hF hroot hsz
      have hal : allocate allocInit rootSize = .ok (33, 33 + secs rootSize) :=
        allocate_ok (by simp only [allocInit]; omega)
      have hpk := packDirsP_cases hT pts (M2 := M) (ds := [([], 33)]) (next := 33 + secs rootSize)
        (fun x hx => PathMap.get_of_mem hT.sorted hx) hT.sorted (by
          intro x hx
          have hg := PathMap.get_of_mem hT.sorted hx
          have hd := (hk x.1).1 (by rw [hg]; rfl)
          rcases DirOf.parent hd with h0 | ⟨q, l, e, g1, g2, g3, g4, g5⟩
          · left; rw [h0]; rfl
          · right
            refine ⟨q, l, e, g5, ?_, g2, g3, g4⟩
            obtain ⟨w, hw⟩ := Option.isSome_iff_exists.1 ((hk q).2 g1)
            exact List.mem_map_of_mem (f := Prod.fst) (PathMap.mem_of_get hw)) hfit
      have hins : PathMap.insert ([] : Path) 33 [] = [([], 33)] := rfl
      simp only [createDirentTablesP, hM, hh, hsz, hal, Pl.lift, Pl.op, bind, Pl.bind, Res.unwrap_some,
        pure, Pl.pure, hins]
      rcases hpk with hpk | ⟨hpk, _⟩
      · rw [hpk]; exact .inl rfl
      · rw [hpk]; exact .inr ⟨_, rfl⟩
    · right
      refine ⟨e, ?_⟩
      simp only [createDirentTablesP, hM]
      rfl
  · obtain ⟨n, hn⟩ := hW.res
    refine ⟨n, fun fuel hf => .inr ⟨e, ?_⟩⟩
    have h1 := hn fuel hf []
    unfold createP
    generalize dirTreeLoopP rd fuel [[]] [] = x at h1
    obtain ⟨ops, res⟩ := x
    simp only at h1
    subst h1
    rfl

theorem plan_succeeds {rd : ReadDir} (pts : Path → Str)
    (hlist : ∀ p, DirOf rd p → ∃ l, rd p = .ok l)
    {tree : List (Path × List FileEntry)} (ht : TreeOf rd tree) (hF : Fits tree)
    (hS : ∀ x ∈ tree, StorableListing x.2) (hK : ∀ x ∈ tree, TableWithin256K x.2)
    {fuel : Nat} (hf : tree.length ≤ fuel) : (createP rd pts fuel).res = .ok () := by
  have hret : ∀ p, DirOf rd p → (rd p).Returns := by
    intro p hp
    obtain ⟨l, hl⟩ := hlist p hp
    rw [hl]; exact ⟨by simp, by simp⟩
  rcases settles hret ht with ⟨D, hW⟩ | ⟨e, hW⟩
  · have hmem : ∀ x ∈ D, x ∈ tree := fun x hx =>
      (ht.2 x.1 x.2).2 ⟨(hW.mem_iff x.1).1 (List.mem_map_of_mem hx), hW.readDir hx⟩
    have hnd := hW.nodup (fun x hx => distinctNames_nodup (hS x (hmem x hx)).1)
    have hlen : D.length ≤ fuel := by
      have := (hW.perm_tree hnd ht).length_eq
      omega
    have h1 := dirTreeLoopP_of_walked hW hlen (out := [])
    simp only [List.reverse_nil, List.nil_append] at h1
    unfold createP
    rw [(Pl.bind_ops_ok (by rw [h1])).2]
    obtain ⟨M, hM⟩ := tablesLoop_succeeds (D := D.reverse) (M := [])
      (fun x hx => hF.2 x (hmem x (List.mem_reverse.1 hx))) (fun x hx => hS x (hmem x (List.mem_reverse.1 hx)))
      (by intro p w h; simp [PathMap.get] at h) (hW.subsBefore _)
    obtain ⟨rootW, hh⟩ := tables_head hW hM
    obtain ⟨hT, _, _, hk⟩ := tables_ok hW hM
    have hroot : M.get [] = some rootW := PathMap.get_of_mem hT.sorted (List.mem_of_mem_head? hh)
    obtain ⟨rootSize, hsz, hlt⟩ := hT.sized _ _ hroot
    have hfit := sectors_fit hW hM ht hF hroot hsz
    have hal : allocate allocInit rootSize = .ok (33, 33 + secs rootSize) :=
      allocate_ok (by simp only [allocInit]; omega)
    have hpk := packDirsP_cases hT pts (M2 := M) (ds := [([], 33)]) (next := 33 + secs rootSize)
      (fun x hx => PathMap.get_of_mem hT.sorted hx) hT.sorted (by
        intro x hx
        have hg := PathMap.get_of_mem hT.sorted hx
        have hd := (hk x.1).1 (by rw [hg]; rfl)
        rcases DirOf.parent hd with h0 | ⟨q, l, e, g1, g2, g3, g4, g5⟩
        · left; rw [h0]; rfl
        · right
          refine ⟨q, l, e, g5, ?_, g2, g3, g4⟩
          obtain ⟨w, hw⟩ := Option.isSome_iff_exists.1 ((hk q).2 g1)
          exact List.mem_map_of_mem (f := Prod.fst) (PathMap.mem_of_get hw)) hfit
    have hins : PathMap.insert ([] : Path) 33 [] = [([], 33)] := rfl
    simp only [createDirentTablesP, hM, hh, hsz, hal, Pl.lift, Pl.op, bind, Pl.bind, Res.unwrap_some,
      pure, Pl.pure, hins]
    rcases hpk with hpk | ⟨hpk, x, hx, n, hn1, hn2⟩
    · rw [hpk]
    · exfalso
      obtain ⟨l, k1, k2, k3⟩ := hT.built x.1 x.2 (PathMap.get_of_mem hT.sorted hx)
      have hd := (hk x.1).1 (by rw [PathMap.get_of_mem hT.sorted hx]; rfl)
      have := hK (x.1, l) ((ht.2 _ _).2 ⟨hd, k1⟩) _ _ _ (Item.names_map M x.1 l) k3 hn1
      omega
  · exfalso
    have : ∀ stack, WalkFails rd e stack → (∀ p ∈ stack, DirOf rd p) → False := by
      intro stack h
      induction h with
      | here h =>
        intro hs
        obtain ⟨l, hl⟩ := hlist _ (hs _ List.mem_cons_self)
        rw [h] at hl; cases hl
      | @next d ds l h1 h2 ih =>
        intro hs
        apply ih
        intro q hq
        rcases List.mem_append.1 hq with hq | hq
        · obtain ⟨e, he, hd, rfl⟩ := mem_subdirPaths.1 (List.mem_reverse.1 hq)
          exact .sub (hs _ List.mem_cons_self) h1 he hd
        · exact hs q (by simp [hq])
    exact this _ hW (by simp [DirOf.root])

/-! ## Running a plan returns -/

theorem Res.Returns.cases {x : Res α} (h : x.Returns) : (∃ a, x = .ok a) ∨ ∃ e, x = .err e := by
  cases x with
  | ok a => exact .inl ⟨a, rfl⟩
  | err e => exact .inr ⟨e, rfl⟩
  | panic => exact absurd rfl h.1
  | hang => exact absurd rfl h.2

theorem PM.bind_returns {x : PM σ α} {f : α → PM σ β} (hx : ∀ s, (x s).1.Returns)
    (hf : ∀ a s, (f a s).1.Returns) : ∀ s, ((x >>= f) s).1.Returns := by
  intro s
  rw [PM.bind_def]
  have := hx s
  rcases hxs : x s with ⟨r, s'⟩
  rw [hxs] at this
  rcases this.cases with ⟨a, rfl⟩ | ⟨e, rfl⟩
  · exact hf a s'
  · exact ⟨by simp, by simp⟩

theorem runOps_returns {env : PackEnv σ} (h : EnvReturns env) : ∀ (ops : List Op) (s : PackState σ),
    (runOps env ops s).1.Returns := by
  intro ops
  induction ops with
  | nil => intro s; exact ⟨by simp [runOps, PM.pure_def], by simp [runOps, PM.pure_def]⟩
  | cons o ops ih =>
    apply PM.bind_returns
    · intro s
      cases o with
      | report p => exact ⟨by simp [Op.run, PM.report], by simp [Op.run, PM.report]⟩
      | write off d => exact h.2.1 off d s.dev
      | copy p out n =>
        refine PM.bind_returns (fun s => h.2.2.1 p 0 out n s.dev) (fun a s => ?_) s
        exact ⟨by simp [PM.pure_def], by simp [PM.pure_def]⟩
    · intro _; exact ih

theorem padImage_returns {env : PackEnv σ} (h : EnvReturns env) (s : PackState σ) :
    (padImage env s).1.Returns := by
  unfold padImage
  refine PM.bind_returns (fun s => h.2.2.2 s.dev) (fun n s => ?_) s
  split
  · exact h.2.1 _ _ s.dev
  · exact ⟨by simp [PM.pure_def], by simp [PM.pure_def]⟩

/-- The copies of a plan are copies of complete source files. -/
def Op.FromSource (rd : ReadDir) : Op → Prop
  | .copy path _ n => ∃ p e, EntryIn rd p e ∧ e.isDir = false ∧ path = p ++ [e.name] ∧ n = e.len
  | _ => True

theorem PlanShape.fromSource {rd : ReadDir} {pts : Path → Str} {D M rootW rootSize next recs n' rest}
    (h : PlanShape rd pts D M rootW rootSize next recs n' rest) :
    ∀ o ∈ planOps pts D recs ++ [descOp rootSize], o.FromSource rd := by
  intro o ho
  cases o with
  | report p => trivial
  | write off d => trivial
  | copy path out n =>
    rcases List.mem_append.1 ho with ho | ho
    · simp only [planOps, discovered, List.mem_append, List.mem_map, List.mem_cons, List.mem_flatMap,
        List.not_mem_nil, or_false] at ho
      rcases ho with ⟨x, _, hx⟩ | (hx | hx) | ⟨y, hy, hx⟩
      · cases hx
      · cases hx
      · cases hx
      · simp only [opsRec, List.mem_cons, List.mem_flatMap] at hx
        rcases hx with hx | hx | ⟨l, hl, hx⟩
        · cases hx
        · cases hx
        · simp only [opsEntry, List.mem_cons] at hx
          rcases hx with hx | hx
          · cases hx
          · split at hx
            · cases hx
            · rename_i hd
              rw [List.mem_singleton] at hx
              cases hx
              obtain ⟨lst, e, g1, g2, g3, g4, g5, _⟩ := h.entry hy hl
              have hd' : e.isDir = false := by rw [g4]; simpa using hd
              exact ⟨y.path, e, ⟨(by rw [← (tables_ok h.walked h.tables).2.2.2 y.path, (h.recOK hy).get]; rfl), lst, g1, g2⟩, hd', by rw [g3]; rfl, (g5 hd').1⟩
    · simp [descOp] at ho

theorem createP_fromSource {rd : ReadDir} {pts : Path → Str} {fuel : Nat}
    (hP : (createP rd pts fuel).res = .ok ()) : ∀ o ∈ (createP rd pts fuel).ops, o.FromSource rd := by
  rcases createP_inv rd pts fuel with
    ⟨k1, k2⟩ | ⟨D, M, rootW, rootSize, next, recs, n', rest, hS, ⟨k1, rfl, k3, k4⟩ | ⟨k1, k2⟩⟩
  · exact absurd hP k2
  · rw [k4]; exact hS.fromSource
  · exact absurd hP k1

theorem runOps_works {env : PackEnv σ} (h : DeviceWorks env) : ∀ (ops : List Op) (s : PackState σ),
    (∀ o ∈ ops, o.FromSource env.readDir) → (runOps env ops s).1 = .ok () := by
  intro ops
  induction ops with
  | nil => intro s _; rfl
  | cons o ops ih =>
    intro s hfs
    simp only [runOps, PM.bind_def]
    have : (o.run env s).1 = .ok () := by
      cases o with
      | report p => rfl
      | write off d => exact h.1 off d s.dev
      | copy p out n =>
        obtain ⟨p0, e, h1, h2, rfl, rfl⟩ := hfs _ List.mem_cons_self
        obtain ⟨k, hk⟩ := h.2.1 p0 e out s.dev h1 h2
        simp only [Op.run, PM.bind_def, PM.onDev, hk, PM.pure_def]
    rcases hr : o.run env s with ⟨r, s'⟩
    rw [hr] at this
    simp only at this
    subst this
    exact ih s' (fun o ho => hfs o (List.mem_cons_of_mem _ ho))

theorem padImage_works {env : PackEnv σ} (h : DeviceWorks env) (s : PackState σ) :
    (padImage env s).1 = .ok () := by
  unfold padImage
  obtain ⟨n, hn⟩ := h.2.2 s.dev
  simp only [PM.bind_def, devLen, hn]
  split
  · exact h.1 _ _ s.dev
  · rfl

theorem createImage_works {env : PackEnv σ} (h : DeviceWorks env) {fuel : Nat}
    (hP : (createP env.readDir env.pathToString fuel).res = .ok ()) (s : PackState σ) :
    (createImage env fuel s).1 = .ok () := by
  rw [createImage_eq]
  change (((createP env.readDir env.pathToString fuel).run env >>= fun _ =>
    padImage env >>= fun _ => PM.report .finishedPacking) s).1 = _
  simp only [PM.bind_def, Pl.run]
  have h1 := runOps_works h (createP env.readDir env.pathToString fuel).ops s (createP_fromSource hP)
  rcases hr : runOps env (createP env.readDir env.pathToString fuel).ops s with ⟨r, s1⟩
  rw [hr] at h1
  simp only at h1
  subst h1
  simp only [PM.lift, hP]
  have h2 := padImage_works h s1
  rcases hq : padImage env s1 with ⟨r2, s2⟩
  rw [hq] at h2
  simp only at h2
  subst h2
  rfl

theorem createImage_returns {env : PackEnv σ} (h : EnvReturns env) {fuel : Nat}
    (hP : (createP env.readDir env.pathToString fuel).res = .ok () ∨
      ∃ e, (createP env.readDir env.pathToString fuel).res = .err e) (s : PackState σ) :
    (createImage env fuel s).1.Returns := by
  rw [createImage_eq]
  refine PM.bind_returns ?_ ?_ s
  · intro s
    refine PM.bind_returns (runOps_returns h _) ?_ s
    intro _ s
    rcases hP with hP | ⟨e, hP⟩
    · simp only [PM.lift, hP]; exact ⟨by simp, by simp⟩
    · simp only [PM.lift, hP]; exact ⟨by simp, by simp⟩
  · intro _ s
    refine PM.bind_returns (padImage_returns h) ?_ s
    intro _ s
    exact ⟨by simp [PM.report], by simp [PM.report]⟩

end Xdvdfs
