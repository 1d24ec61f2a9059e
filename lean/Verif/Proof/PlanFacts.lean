import Verif.Proof.Tables
import Verif.Props.Dirtab

/-!
# What a plan contains
-/

namespace Xdvdfs

open TabWriter Spec Props

/-- The directories written one after the other. -/
def Chain : PathMap Nat → Nat → List Rec → Nat → Prop
  | _, n, [], n' => n = n'
  | ds, n, x :: xs, n' => ds.get x.path = some x.sector ∧ ∃ n1, x.w.diskRepr n = .ok (x.r, n1) ∧
      Chain (addSubs x.path ds x.r.fileListing) n1 xs n'

theorem packDirsP_inv (pts : Path → Str) : ∀ (M : PathMap TabWriter) (ds : PathMap Nat) (n : Nat),
    ∃ recs n' rest, M = recs.map (fun x => (x.path, x.w)) ++ rest ∧ Chain ds n recs n' ∧
      (packDirsP pts M ds n).ops = recs.flatMap (opsRec pts) ∧
      ((packDirsP pts M ds n).res = .ok () → rest = []) := by
  intro M
  induction M with
  | nil => intro ds n; exact ⟨[], n, [], rfl, rfl, rfl, fun _ => rfl⟩
  | cons y M ih =>
    obtain ⟨p, w⟩ := y
    intro ds n
    simp only [packDirsP]
    have fail : ∀ {P : Pl Unit}, P.ops = [] → (∀ u, P.res ≠ .ok u) →
        ∃ recs n' rest, (p, w) :: M = recs.map (fun x => (x.path, x.w)) ++ rest ∧ Chain ds n recs n' ∧
        P.ops = recs.flatMap (opsRec pts) ∧ (P.res = .ok () → rest = []) := by
      intro P h1 h2
      exact ⟨[], n, (p, w) :: M, rfl, rfl, by rw [h1]; rfl, fun h => absurd h (h2 _)⟩
    cases hg : ds.get p with
    | none => exact fail rfl (fun u h => by cases h)
    | some s =>
      cases hr : w.diskRepr n with
      | err e => exact fail rfl (fun u h => by cases h)
      | panic => exact fail rfl (fun u h => by cases h)
      | hang => exact fail rfl (fun u h => by cases h)
      | ok z =>
        obtain ⟨r, n1⟩ := z
        obtain ⟨recs, n', rest, h1, h2, h3, h4⟩ := ih (addSubs p ds r.fileListing) n1
        refine ⟨⟨p, w, s, r⟩ :: recs, n', rest, by simp [h1], ⟨hg, n1, hr, h2⟩, ?_, ?_⟩
        · simp only [List.flatMap_cons, ← h3]
          rfl
        · intro h
          exact h4 h

/-- Shape of a plan. -/
structure PlanShape (rd : ReadDir) (pts : Path → Str) (D : List (Path × List FileEntry))
    (M : PathMap TabWriter) (rootW : TabWriter) (rootSize next : Nat) (recs : List Rec) (n' : Nat)
    (rest : PathMap TabWriter) : Prop where
  walked : Walked rd [[]] D
  tables : tablesLoop D.reverse [] = .ok M
  head : M.head? = some ([], rootW)
  size : rootW.dirtabSize = .ok rootSize
  alloc : allocate allocInit rootSize = .ok (33, next)
  split : M = recs.map (fun x => (x.path, x.w)) ++ rest
  chain : Chain [([], 33)] next recs n'

/-- The operations of a plan that gets past the tables. -/
def planOps (pts : Path → Str) (D : List (Path × List FileEntry)) (recs : List Rec) : List Op :=
  discovered D ++ ([.report (.fileCount (D.map (fun d => d.2.length)).sum), .report (.dirCount D.length)] ++
    recs.flatMap (opsRec pts))

def descOp (rootSize : Nat) : Op := .write (32 * sectorSize) (rootDesc 33 rootSize)

theorem tables_head {rd : ReadDir} {D : List (Path × List FileEntry)} {M : PathMap TabWriter}
    (hW : Walked rd [[]] D) (h : tablesLoop D.reverse [] = .ok M) :
    ∃ w, M.head? = some ([], w) := by
  obtain ⟨h1, _, _, h4⟩ := tables_ok hW h
  obtain ⟨w, hw⟩ := Option.isSome_iff_exists.1 ((h4 []).2 .root)
  have hm := PathMap.mem_of_get hw
  cases M with
  | nil => simp at hm
  | cons y M =>
    obtain ⟨p, v⟩ := y
    by_cases hp : p = []
    · exact ⟨v, by simp [hp]⟩
    · have hs := List.pairwise_cons.1 h1.sorted
      rcases List.mem_cons.1 hm with hm | hm
      · cases hm; exact absurd rfl hp
      · have := hs.1 _ hm
        simp only at this
        have h2 := cmpPath_nil hp
        have h3 := cmpPath_lt_trans this h2
        rw [(cmpPath_eq_iff _ _).2 rfl] at h3
        cases h3

theorem createP_inv (rd : ReadDir) (pts : Path → Str) (fuel : Nat) :
    ((∀ o ∈ (createP rd pts fuel).ops, o.IsReport) ∧ (createP rd pts fuel).res ≠ .ok ()) ∨
    ∃ D M rootW rootSize next recs n' rest,
      PlanShape rd pts D M rootW rootSize next recs n' rest ∧
      (((createP rd pts fuel).res = .ok () ∧ rest = [] ∧ D.length ≤ fuel ∧
        (createP rd pts fuel).ops = planOps pts D recs ++ [descOp rootSize]) ∨
       ((createP rd pts fuel).res ≠ .ok () ∧ (createP rd pts fuel).ops = planOps pts D recs)) := by
  unfold createP
  cases hD : (dirTreeLoopP rd fuel [[]] []).res with
  | err e =>
    left
    obtain ⟨h1, h2⟩ := Pl.bind_ops_of_not_ok (x := dirTreeLoopP rd fuel [[]] []) (by simp [hD])
    rw [h1]; exact ⟨dirTreeLoopP_reports _ _ _ _, h2 _⟩
  | panic =>
    left
    obtain ⟨h1, h2⟩ := Pl.bind_ops_of_not_ok (x := dirTreeLoopP rd fuel [[]] []) (by simp [hD])
    rw [h1]; exact ⟨dirTreeLoopP_reports _ _ _ _, h2 _⟩
  | hang =>
    left
    obtain ⟨h1, h2⟩ := Pl.bind_ops_of_not_ok (x := dirTreeLoopP rd fuel [[]] []) (by simp [hD])
    rw [h1]; exact ⟨dirTreeLoopP_reports _ _ _ _, h2 _⟩
  | ok D =>
    obtain ⟨D', e1, hW, hlen, hops⟩ := dirTreeLoopP_ok hD
    simp only [List.reverse_nil, List.nil_append] at e1
    subst e1
    obtain ⟨b1, b2⟩ := Pl.bind_ops_ok (f := fun dirtree => do
      let tables ← createDirentTablesP dirtree
      let (rootPath, rootTab) ← Pl.lift (Res.unwrap tables.head?)
      let rootSize ← Pl.lift rootTab.dirtabSize
      let (rootSector, next) ← Pl.lift (allocate allocInit rootSize)
      packDirsP pts tables (PathMap.insert rootPath rootSector []) next
      Pl.op (.write (32 * sectorSize) (rootDesc rootSector rootSize))) hD
    rw [b1, b2, hops]
    cases hM : tablesLoop D.reverse [] with
    | err e =>
      left
      simp only [createDirentTablesP, hM]
      refine ⟨?_, fun h => by cases h⟩
      intro o ho
      simp only [Pl.lift, bind, Pl.bind, List.append_nil] at ho
      simp only [discovered, List.mem_map] at ho
      obtain ⟨_, _, rfl⟩ := ho
      trivial
    | panic =>
      left
      simp only [createDirentTablesP, hM]
      refine ⟨?_, fun h => by cases h⟩
      intro o ho
      simp only [Pl.lift, bind, Pl.bind, List.append_nil] at ho
      simp only [discovered, List.mem_map] at ho
      obtain ⟨_, _, rfl⟩ := ho
      trivial
    | hang =>
      left
      simp only [createDirentTablesP, hM]
      refine ⟨?_, fun h => by cases h⟩
      intro o ho
      simp only [Pl.lift, bind, Pl.bind, List.append_nil] at ho
      simp only [discovered, List.mem_map] at ho
      obtain ⟨_, _, rfl⟩ := ho
      trivial
    | ok M =>
      obtain ⟨rootW, hh⟩ := tables_head hW hM
      obtain ⟨hT, _, _, hk⟩ := tables_ok hW hM
      have hroot : M.get [] = some rootW := by
        apply PathMap.get_of_mem hT.sorted
        exact List.mem_of_mem_head? hh
      obtain ⟨rootSize, hsz, hlt⟩ := hT.sized _ _ hroot
      have hal : ∃ next, allocate allocInit rootSize = .ok (33, next) := by
        have : secs rootSize ≤ 2 ^ 21 := by unfold secs; split <;> omega
        exact ⟨_, allocate_ok (by simp only [allocInit]; omega)⟩
      obtain ⟨next, hal⟩ := hal
      obtain ⟨recs, n', rest, k1, k2, k3, k4⟩ := packDirsP_inv pts M [([], 33)] next
      right
      refine ⟨D, M, rootW, rootSize, next, recs, n', rest, ⟨hW, hM, hh, hsz, hal, k1, k2⟩, ?_⟩
      have hins : PathMap.insert ([] : Path) 33 [] = [([], 33)] := rfl
      simp only [createDirentTablesP, hM, hh, hsz, hal, Pl.lift, Pl.op, bind, Pl.bind, Res.unwrap_some,
        pure, Pl.pure, hins]
      cases hp : (packDirsP pts M [([], 33)] next).res with
      | ok u =>
        left
        refine ⟨rfl, k4 hp, hlen, ?_⟩
        simp only [planOps, k3, List.append_assoc, descOp]
        rfl
      | err e => right; refine ⟨by simp, ?_⟩; simp only [planOps, k3]; rfl
      | panic => right; refine ⟨by simp, ?_⟩; simp only [planOps, k3]; rfl
      | hang => right; refine ⟨by simp, ?_⟩; simp only [planOps, k3]; rfl

end Xdvdfs
