import Verif.Model.Read
import Verif.Spec.Reader
import Verif.Proof.Codec

/-! Helper lemmas about the reader: absence of panics, fuel monotonicity, termination. -/

namespace Xdvdfs

open Res

theorem Returns.ok (a : α) : (Res.ok a).Returns := ⟨by simp, by simp⟩
theorem Returns.err (e : Err) : (Res.err e : Res α).Returns := ⟨by simp, by simp⟩

theorem Returns.bind {x : Res α} {f : α → Res β} (hx : x.Returns)
    (hf : ∀ a, x = .ok a → (f a).Returns) : (x >>= f).Returns := by
  cases x with
  | ok a => exact hf a rfl
  | err e => exact Returns.err e
  | panic => exact absurd rfl hx.1
  | hang => exact absurd rfl hx.2

theorem fileDev_sane (c : Bytes) (lim : Nat) : (fileDev c).SaneBelow lim := by
  intro off n _
  show (fileRead c off n).Returns
  unfold fileRead
  split
  · exact Returns.ok _
  · split
    · exact Returns.ok _
    · exact Returns.err _

theorem Region.offset_returns (r : Region) (o : Nat) : (r.offset o).Returns := by
  unfold Region.offset; split
  · exact Returns.err _
  · exact Returns.ok _

theorem Region.offset_ok {r : Region} {o a : Nat} (h : r.offset o = .ok a) :
    o < r.size.toNat ∧ a = 2048 * r.sector.toNat + o := by
  unfold Region.offset sectorSize at h
  split at h
  · cases h
  · cases h; exact ⟨by omega, rfl⟩

theorem Region.offset_of_lt {r : Region} {o : Nat} (h : o < r.size.toNat) :
    r.offset o = .ok (2048 * r.sector.toNat + o) := by
  unfold Region.offset sectorSize; rw [if_neg (by omega)]

theorem Region.offset_lt {r : Region} {o a : Nat} (h : r.offset o = .ok a) :
    a < 2 ^ 43 + 2 ^ 32 := by
  obtain ⟨h1, rfl⟩ := Region.offset_ok h
  have := r.sector.toNat_lt
  have := r.size.toNat_lt
  omega

theorem readDirent_returns {dev : Dev} (hd : dev.SaneBelow (2 ^ 44)) {a : Nat}
    (ha : a < 2 ^ 43 + 2 ^ 32) : (readDirent dev a).Returns := by
  unfold readDirent
  apply Returns.bind (hd _ _ (by omega))
  intro buf _
  split
  · exact Returns.ok _
  · apply Returns.bind (hd _ _ (by omega))
    intro _ _; exact Returns.ok _

theorem ofOption_returns (e : Err) (o : Option α) : (Res.ofOption e o).Returns := by
  cases o
  · exact Returns.err _
  · exact Returns.ok _

theorem findLoop_no_panic {dev : Dev} (hd : dev.SaneBelow (2 ^ 44)) (tab : Region) (name : Str)
    (fuel a : Nat) (ha : a < 2 ^ 43 + 2 ^ 32) : findLoop dev tab name fuel a ≠ .panic := by
  induction fuel generalizing a with
  | zero => simp [findLoop]
  | succ fuel ih =>
    unfold findLoop
    intro h
    rw [bind_eq_panic] at h
    rcases h with h | ⟨d?, _, h⟩
    · exact (readDirent_returns hd ha).1 h
    rw [bind_eq_panic] at h
    rcases h with h | ⟨d, _, h⟩
    · exact (ofOption_returns _ _).1 h
    have key (l : UInt16) : (if l = 0 then (.err .doesNotExist : Res DirEnt)
        else do let off ← tab.offset (4 * l.toNat); findLoop dev tab name fuel off) ≠ .panic := by
      split
      · simp
      · intro h
        rw [bind_eq_panic] at h
        rcases h with h | ⟨off, ho, h⟩
        · exact (Region.offset_returns _ _).1 h
        · exact ih off (Region.offset_lt ho) h
    cases hc : cmpIgnoreCase name d.nameStr <;> simp only [hc, pure_eq, ok_bind] at h
    · exact key _ h
    · cases h
    · exact key _ h

theorem findDirent_no_panic {dev : Dev} (hd : dev.SaneBelow (2 ^ 44)) (tab : Region) (name : Str)
    (fuel : Nat) : findDirent dev tab name fuel ≠ .panic := by
  unfold findDirent
  split
  · simp
  · intro h
    rw [bind_eq_panic] at h
    rcases h with h | ⟨off, ho, h⟩
    · exact (Region.offset_returns _ _).1 h
    · exact findLoop_no_panic hd _ _ _ _ (Region.offset_lt ho) h

theorem walkSegments_no_panic {dev : Dev} (hd : dev.SaneBelow (2 ^ 44)) (fuel : Nat)
    (tab : Region) (segs : List Str) (hs : segs ≠ []) :
    walkSegments dev fuel tab segs ≠ .panic := by
  induction segs generalizing tab with
  | nil => exact absurd rfl hs
  | cons seg segs ih =>
    unfold walkSegments
    intro h
    rw [bind_eq_panic] at h
    rcases h with h | ⟨d, _, h⟩
    · exact findDirent_no_panic hd _ _ _ h
    split at h
    · cases h
    · rw [bind_eq_panic] at h
      rcases h with h | ⟨t, _, h⟩
      · exact (ofOption_returns _ _).1 h
      · exact ih t (by assumption) h

theorem walkLoop_no_panic {dev : Dev} (hd : dev.SaneBelow (2 ^ 44)) (tab : Region)
    (fuel : Nat) (stack : List Nat) (acc : List DirEnt) :
    walkLoop dev tab fuel stack acc ≠ .panic := by
  induction fuel generalizing stack acc with
  | zero => cases stack <;> simp [walkLoop]
  | succ fuel ih =>
    cases stack with
    | nil => simp [walkLoop]
    | cons top stack =>
      unfold walkLoop
      intro h
      rw [bind_eq_panic] at h
      rcases h with h | ⟨off, ho, h⟩
      · exact (Region.offset_returns _ _).1 h
      rw [bind_eq_panic] at h
      rcases h with h | ⟨d, _, h⟩
      · exact (readDirent_returns hd (Region.offset_lt ho)).1 h
      split at h
      · exact ih _ _ h
      · exact ih _ _ h

theorem walkDirentTree_no_panic {dev : Dev} (hd : dev.SaneBelow (2 ^ 44)) (tab : Region)
    (fuel : Nat) : walkDirentTree dev tab fuel ≠ .panic := by
  unfold walkDirentTree
  split
  · simp
  · exact walkLoop_no_panic hd _ _ _ _

theorem fileTreeLoop_no_panic {dev : Dev} (hd : dev.SaneBelow (2 ^ 44)) (wf fuel : Nat)
    (stack : List (Str × Region)) (acc : List (Str × DirEnt)) :
    fileTreeLoop dev wf fuel stack acc ≠ .panic := by
  induction fuel generalizing stack acc with
  | zero => cases stack <;> simp [fileTreeLoop]
  | succ fuel ih =>
    cases stack with
    | nil => simp [fileTreeLoop]
    | cons top stack =>
      obtain ⟨parent, tab⟩ := top
      unfold fileTreeLoop
      intro h
      rw [bind_eq_panic] at h
      rcases h with h | ⟨ch, _, h⟩
      · exact walkDirentTree_no_panic hd _ _ h
      · exact ih _ _ h

/-! ## Fuel monotonicity -/

theorem findLoop_mono {dev : Dev} {tab : Region} {name : Str} {fuel a : Nat}
    (h : findLoop dev tab name fuel a ≠ .hang) (fuel' : Nat) (hf : fuel ≤ fuel') :
    findLoop dev tab name fuel' a = findLoop dev tab name fuel a := by
  induction fuel generalizing a fuel' with
  | zero => simp [findLoop] at h
  | succ fuel ih =>
    obtain ⟨fuel', rfl⟩ : ∃ k, fuel' = k + 1 := ⟨fuel' - 1, by omega⟩
    unfold findLoop at h ⊢
    cases h1 : readDirent dev a with
    | ok d? =>
      cases d? with
      | none => rfl
      | some d =>
        simp only [h1, ok_bind, ofOption_some] at h ⊢
        have key (l : UInt16) (hl : (if l = 0 then (.err .doesNotExist : Res DirEnt)
            else do let off ← tab.offset (4 * l.toNat); findLoop dev tab name fuel off) ≠ .hang) :
            (if l = 0 then (.err .doesNotExist : Res DirEnt)
            else do let off ← tab.offset (4 * l.toNat); findLoop dev tab name fuel' off) =
            (if l = 0 then (.err .doesNotExist : Res DirEnt)
            else do let off ← tab.offset (4 * l.toNat); findLoop dev tab name fuel off) := by
          split
          · rfl
          · rename_i hl0
            rw [if_neg hl0] at hl
            cases ho : tab.offset (4 * l.toNat) with
            | ok off =>
              simp only [ho, ok_bind] at hl ⊢
              exact ih hl fuel' (by omega)
            | _ => rfl
        cases hc : cmpIgnoreCase name d.nameStr <;> simp only [hc, pure_eq, ok_bind] at h ⊢
        · exact key _ h
        · exact key _ h
    | _ => rfl

theorem findDirent_mono {dev : Dev} {tab : Region} {name : Str} {fuel : Nat}
    (h : findDirent dev tab name fuel ≠ .hang) (fuel' : Nat) (hf : fuel ≤ fuel') :
    findDirent dev tab name fuel' = findDirent dev tab name fuel := by
  unfold findDirent at h ⊢
  split
  · rfl
  · rename_i he
    rw [if_neg he] at h
    cases ho : tab.offset 0 with
    | ok off => simp only [ho, ok_bind] at h ⊢; exact findLoop_mono h _ hf
    | _ => rfl

theorem walkSegments_mono {dev : Dev} {tab : Region} {segs : List Str} {fuel : Nat}
    (h : walkSegments dev fuel tab segs ≠ .hang) (fuel' : Nat) (hf : fuel ≤ fuel') :
    walkSegments dev fuel' tab segs = walkSegments dev fuel tab segs := by
  induction segs generalizing tab with
  | nil => rfl
  | cons seg segs ih =>
    unfold walkSegments at h ⊢
    have h1 : findDirent dev tab seg fuel ≠ .hang := by
      intro he; rw [he] at h; exact h rfl
    rw [findDirent_mono h1 _ hf]
    cases h2 : findDirent dev tab seg fuel with
    | ok d =>
      simp only [h2, ok_bind] at h ⊢
      split
      · rfl
      · rename_i hs
        rw [if_neg hs] at h
        cases ht : d.node.dirent.direntTable with
        | none => rfl
        | some t =>
          simp only [ht, ofOption_some, ok_bind] at h ⊢
          exact ih h
    | _ => rfl

theorem walkPath_mono {dev : Dev} {tab : Region} {path : Str} {fuel : Nat}
    (h : walkPath dev tab path fuel ≠ .hang) (fuel' : Nat) (hf : fuel ≤ fuel') :
    walkPath dev tab path fuel' = walkPath dev tab path fuel := by
  unfold walkPath at h ⊢
  split
  · rfl
  · rename_i hp
    rw [if_neg hp] at h
    exact walkSegments_mono h _ hf

theorem walkLoop_mono {dev : Dev} {tab : Region} {fuel : Nat} {stack : List Nat}
    {acc : List DirEnt} (h : walkLoop dev tab fuel stack acc ≠ .hang) (fuel' : Nat)
    (hf : fuel ≤ fuel') :
    walkLoop dev tab fuel' stack acc = walkLoop dev tab fuel stack acc := by
  induction fuel generalizing stack acc fuel' with
  | zero =>
    cases stack with
    | nil => cases fuel' <;> rfl
    | cons _ _ => simp [walkLoop] at h
  | succ fuel ih =>
    obtain ⟨fuel', rfl⟩ : ∃ k, fuel' = k + 1 := ⟨fuel' - 1, by omega⟩
    cases stack with
    | nil => rfl
    | cons top stack =>
      unfold walkLoop at h ⊢
      cases ho : tab.offset top with
      | ok off =>
        simp only [ho, ok_bind] at h ⊢
        cases hr : readDirent dev off with
        | ok d? =>
          cases d? with
          | none => simp only [hr, ok_bind] at h ⊢; exact ih h _ (by omega)
          | some d => simp only [hr, ok_bind] at h ⊢; exact ih h _ (by omega)
        | _ => rfl
      | _ => rfl

theorem walkDirentTree_mono {dev : Dev} {tab : Region} {fuel : Nat}
    (h : walkDirentTree dev tab fuel ≠ .hang) (fuel' : Nat) (hf : fuel ≤ fuel') :
    walkDirentTree dev tab fuel' = walkDirentTree dev tab fuel := by
  unfold walkDirentTree at h ⊢
  split
  · rfl
  · rename_i he
    rw [if_neg he] at h
    exact walkLoop_mono h _ hf

theorem fileTreeLoop_mono {dev : Dev} {wf fuel : Nat} {stack : List (Str × Region)}
    {acc : List (Str × DirEnt)} (h : fileTreeLoop dev wf fuel stack acc ≠ .hang)
    (wf' fuel' : Nat) (hw : wf ≤ wf') (hf : fuel ≤ fuel') :
    fileTreeLoop dev wf' fuel' stack acc = fileTreeLoop dev wf fuel stack acc := by
  induction fuel generalizing stack acc fuel' with
  | zero =>
    cases stack with
    | nil => cases fuel' <;> rfl
    | cons _ _ => simp [fileTreeLoop] at h
  | succ fuel ih =>
    obtain ⟨fuel', rfl⟩ : ∃ k, fuel' = k + 1 := ⟨fuel' - 1, by omega⟩
    cases stack with
    | nil => rfl
    | cons top stack =>
      obtain ⟨parent, tab⟩ := top
      unfold fileTreeLoop at h ⊢
      have h1 : walkDirentTree dev tab wf ≠ .hang := by
        intro he; rw [he] at h; exact h rfl
      rw [walkDirentTree_mono h1 _ hw]
      cases h2 : walkDirentTree dev tab wf with
      | ok ch => simp only [h2, ok_bind] at h ⊢; exact ih h _ (by omega)
      | _ => rfl

/-! ## Termination on acyclic tables -/

theorem walkLoop_acyclic {dev : Dev} (hd : dev.SaneBelow (2 ^ 44)) {tab : Region}
    {rank : Nat → Nat}
    (hr : ∀ o c, Spec.Reachable dev tab o → Spec.ChildOf dev tab o c → rank c < rank o)
    (r : Nat) : ∀ top, rank top ≤ r → Spec.Reachable dev tab top →
    ∃ n, (∃ l : List DirEnt, ∀ fuel stack acc,
        walkLoop dev tab (n + fuel) (top :: stack) acc = walkLoop dev tab fuel stack (l ++ acc)) ∨
      (∃ res : Res (List DirEnt), res ≠ .hang ∧ ∀ fuel stack acc,
        walkLoop dev tab (n + fuel) (top :: stack) acc = res) := by
  induction r using Nat.strongRecOn with
  | _ r ih =>
  intro top htop hreach
  cases ho : tab.offset top with
  | err e =>
    refine ⟨1, .inr ⟨.err e, by simp, ?_⟩⟩
    intro fuel stack acc
    rw [Nat.add_comm]; unfold walkLoop; simp [ho]
  | panic => exact absurd ho (Region.offset_returns _ _).1
  | hang => exact absurd ho (Region.offset_returns _ _).2
  | ok off =>
    have hrd := readDirent_returns hd (Region.offset_lt ho)
    cases hd' : readDirent dev off with
    | err e =>
      refine ⟨1, .inr ⟨.err e, by simp, ?_⟩⟩
      intro fuel stack acc
      rw [Nat.add_comm]; unfold walkLoop; simp [ho, hd']
    | panic => exact absurd hd' hrd.1
    | hang => exact absurd hd' hrd.2
    | ok d? =>
      cases d? with
      | none =>
        refine ⟨1, .inl ⟨[], ?_⟩⟩
        intro fuel stack acc
        rw [Nat.add_comm]
        conv => lhs; unfold walkLoop
        simp [ho, hd']
      | some d =>
        obtain ⟨hlt, rfl⟩ := Region.offset_ok ho
        have hE : Spec.EntryAt dev tab top d := ⟨hlt, hd'⟩
        -- children
        have hchild (l : UInt16) (hl : l ≠ 0 ∧ l ≠ 0xffff)
            (hm : l = d.node.left ∨ l = d.node.right) :
            Spec.ChildOf dev tab top (4 * l.toNat) := by
          rcases hm with rfl | rfl
          · exact ⟨d, hE, .inl ⟨hl, rfl⟩⟩
          · exact ⟨d, hE, .inr ⟨hl, rfl⟩⟩
        have sub (l : UInt16) (hl : l ≠ 0 ∧ l ≠ 0xffff)
            (hm : l = d.node.left ∨ l = d.node.right) :=
          ih (rank (4 * l.toNat))
            (Nat.lt_of_lt_of_le (hr _ _ hreach (hchild l hl hm)) htop)
            (4 * l.toNat) (Nat.le_refl _) (.child hreach (hchild l hl hm))
        have step (fuel : Nat) (stack acc) :
            walkLoop dev tab (fuel + 1) (top :: stack) acc =
              walkLoop dev tab fuel (pushChildren d.node stack) (d :: acc) := by
          conv => lhs; unfold walkLoop
          simp [ho, hd']
        -- the optional left child
        have hleft : ∃ n, (∃ l : List DirEnt, ∀ fuel stack acc,
            walkLoop dev tab (n + fuel) (if d.node.left ≠ 0 ∧ d.node.left ≠ 0xffff then
              4 * d.node.left.toNat :: stack else stack) acc =
              walkLoop dev tab fuel stack (l ++ acc)) ∨
            (∃ res : Res (List DirEnt), res ≠ .hang ∧ ∀ fuel stack acc,
              walkLoop dev tab (n + fuel) (if d.node.left ≠ 0 ∧ d.node.left ≠ 0xffff then
              4 * d.node.left.toNat :: stack else stack) acc = res) := by
          by_cases hl : d.node.left ≠ 0 ∧ d.node.left ≠ 0xffff
          · simp only [if_pos hl]; exact sub _ hl (.inl rfl)
          · simp only [if_neg hl]; exact ⟨0, .inl ⟨[], by simp⟩⟩
        have hright : ∃ n, (∃ l : List DirEnt, ∀ fuel stack acc,
            walkLoop dev tab (n + fuel) (if d.node.right ≠ 0 ∧ d.node.right ≠ 0xffff then
              4 * d.node.right.toNat :: stack else stack) acc =
              walkLoop dev tab fuel stack (l ++ acc)) ∨
            (∃ res : Res (List DirEnt), res ≠ .hang ∧ ∀ fuel stack acc,
              walkLoop dev tab (n + fuel) (if d.node.right ≠ 0 ∧ d.node.right ≠ 0xffff then
              4 * d.node.right.toNat :: stack else stack) acc = res) := by
          by_cases hl : d.node.right ≠ 0 ∧ d.node.right ≠ 0xffff
          · simp only [if_pos hl]; exact sub _ hl (.inr rfl)
          · simp only [if_neg hl]; exact ⟨0, .inl ⟨[], by simp⟩⟩
        obtain ⟨n1, h1⟩ := hleft
        obtain ⟨n2, h2⟩ := hright
        refine ⟨n2 + n1 + 1, ?_⟩
        rcases h2 with ⟨l2, h2⟩ | ⟨res2, hne2, h2⟩
        · rcases h1 with ⟨l1, h1⟩ | ⟨res1, hne1, h1⟩
          · left
            refine ⟨l1 ++ l2 ++ [d], ?_⟩
            intro fuel stack acc
            rw [show n2 + n1 + 1 + fuel = (n2 + (n1 + fuel)) + 1 by omega, step]
            simp only [pushChildren]
            rw [h2, h1]; simp
          · right
            refine ⟨res1, hne1, ?_⟩
            intro fuel stack acc
            rw [show n2 + n1 + 1 + fuel = (n2 + (n1 + fuel)) + 1 by omega, step]
            simp only [pushChildren]
            rw [h2, h1]
        · right
          refine ⟨res2, hne2, ?_⟩
          intro fuel stack acc
          rw [show n2 + n1 + 1 + fuel = (n2 + (n1 + fuel)) + 1 by omega, step]
          simp only [pushChildren]
          rw [h2]

theorem walkDirentTree_terminates {dev : Dev} (hd : dev.SaneBelow (2 ^ 44)) {tab : Region}
    (ha : Spec.Acyclic dev tab) : ∃ n, walkDirentTree dev tab n ≠ .hang := by
  obtain ⟨rank, hr⟩ := ha
  obtain ⟨n, h⟩ := walkLoop_acyclic hd hr (rank 0) 0 (Nat.le_refl _) .root
  refine ⟨n + 0, ?_⟩
  unfold walkDirentTree
  split
  · simp
  · rcases h with ⟨l, h⟩ | ⟨res, hne, h⟩
    · rw [h]; simp [walkLoop]
    · rw [h]; exact hne

/-- The links followed by `find_dirent`: it treats only `0` as absent. -/
theorem findLoop_terminates {dev : Dev} (hd : dev.SaneBelow (2 ^ 44)) {tab : Region}
    {rank : Nat → Nat}
    (hr : ∀ o c, Spec.Reachable dev tab o → Spec.ChildOf dev tab o c → rank c < rank o)
    (hsz : tab.size.toNat ≤ 262140) (name : Str)
    (r : Nat) : ∀ top, rank top ≤ r → top < tab.size.toNat → Spec.Reachable dev tab top →
    ∃ n, findLoop dev tab name n (2048 * tab.sector.toNat + top) ≠ .hang := by
  induction r using Nat.strongRecOn with
  | _ r ih =>
  intro top htop hlt hreach
  have hoff := Region.offset_of_lt (r := tab) hlt
  have hrd := readDirent_returns hd (Region.offset_lt hoff)
  cases hd' : readDirent dev (2048 * tab.sector.toNat + top) with
  | err e => exact ⟨1, by simp [findLoop, hd']⟩
  | panic => exact absurd hd' hrd.1
  | hang => exact absurd hd' hrd.2
  | ok d? =>
    cases d? with
    | none => exact ⟨1, by simp [findLoop, hd']⟩
    | some d =>
      have hE : Spec.EntryAt dev tab top d := ⟨hlt, hd'⟩
      have key (l : UInt16) (hm : l = d.node.left ∨ l = d.node.right) : ∃ n,
          (if l = 0 then (.err .doesNotExist : Res DirEnt)
            else do let off ← tab.offset (4 * l.toNat); findLoop dev tab name n off) ≠ .hang := by
        by_cases h0 : l = 0
        · exact ⟨0, by simp [h0]⟩
        · simp only [if_neg h0]
          cases ho : tab.offset (4 * l.toNat) with
          | err e => exact ⟨0, by simp⟩
          | panic => exact absurd ho (Region.offset_returns _ _).1
          | hang => exact absurd ho (Region.offset_returns _ _).2
          | ok off =>
            obtain ⟨hlt', rfl⟩ := Region.offset_ok ho
            have hf : l ≠ 0xffff := by
              rintro rfl
              have : (65535 : UInt16).toNat = 65535 := rfl
              omega
            have hch : Spec.ChildOf dev tab top (4 * l.toNat) := by
              rcases hm with rfl | rfl
              · exact ⟨d, hE, .inl ⟨⟨h0, hf⟩, rfl⟩⟩
              · exact ⟨d, hE, .inr ⟨⟨h0, hf⟩, rfl⟩⟩
            obtain ⟨n, hn⟩ := ih (rank (4 * l.toNat))
              (Nat.lt_of_lt_of_le (hr _ _ hreach hch) htop) _ (Nat.le_refl _) hlt'
              (.child hreach hch)
            exact ⟨n, by simpa using hn⟩
      cases hc : cmpIgnoreCase name d.nameStr with
      | eq => exact ⟨1, by simp [findLoop, hd', hc]⟩
      | lt =>
        obtain ⟨n, hn⟩ := key _ (.inl rfl)
        refine ⟨n + 1, ?_⟩
        unfold findLoop
        simpa only [hd', hc, ok_bind, ofOption_some, pure_eq] using hn
      | gt =>
        obtain ⟨n, hn⟩ := key _ (.inr rfl)
        refine ⟨n + 1, ?_⟩
        unfold findLoop
        simpa only [hd', hc, ok_bind, ofOption_some, pure_eq] using hn

/-! ## Sequential scan -/

/-- Invariant of the scan iterator. -/
def Scan.Inv (s : Scan) : Prop := s.buf.length = 2048 ∧ s.offset + 14 < 2048 ∧ s.offset % 4 = 0

/-- Upper bound on the number of entries still to come. -/
def Scan.left (s : Scan) : Nat := (s.endSector - s.sector) * 128 - s.offset / 16

theorem Scan.nextSector_spec {dev : Dev} (hd : dev.SaneBelow (2 ^ 44)) (s : Scan)
    (he : s.endSector ≤ 2 ^ 33) (hb : s.buf.length = 2048) :
    (s.nextSector dev).Returns ∧ ∀ s', s.nextSector dev = .ok s' →
      s'.Inv ∧ s'.sector = s.sector + 1 ∧ s'.endSector = s.endSector ∧ s'.offset = 0 := by
  unfold Scan.nextSector
  simp only
  split
  · refine ⟨Returns.ok _, ?_⟩
    intro s' h; cases h
    exact ⟨⟨hb, by simp, by simp⟩, rfl, rfl, rfl⟩
  · rename_i hlt
    have hr := hd ((s.sector + 1) * sectorSize) 2048 (by simp only [sectorSize]; omega)
    constructor
    · apply Returns.bind hr; intros; exact Returns.ok _
    · intro s' h
      rw [bind_eq_ok] at h
      obtain ⟨b, hb', h⟩ := h
      cases h
      exact ⟨⟨dev.read_len _ _ _ hb', by simp, by simp⟩, rfl, rfl, rfl⟩

theorem Scan.step_spec {dev : Dev} (hd : dev.SaneBelow (2 ^ 44)) (s : Scan)
    (he : s.endSector ≤ 2 ^ 33) (hi : s.Inv) (hlt : s.sector < s.endSector) :
    s.step dev ≠ .hang ∧ ∀ r, s.step dev = .ok r →
      match r with
      | .inl s' => s'.Inv ∧ s'.sector = s.sector + 1 ∧ s'.endSector = s.endSector ∧
          s'.sector < s'.endSector ∧ s'.offset = 0
      | .inr (none, _) => True
      | .inr (some _, s') => s'.Inv ∧ s'.endSector = s.endSector ∧ s'.left < s.left ∧
          s.sector ≤ s'.sector := by
  obtain ⟨hb, ho, h4⟩ := hi
  unfold Scan.step
  simp only [ho, decide_true, assert_true, ok_bind]
  cases hn : deserDirentNode (slice s.buf s.offset 14) with
  | none =>
    simp only
    split
    · rename_i hlt2
      have := Scan.nextSector_spec hd s he hb
      constructor
      · apply (Returns.bind this.1 ?_).2; intros; exact Returns.ok _
      · intro r h
        rw [bind_eq_ok] at h
        obtain ⟨s', hs', h⟩ := h
        cases h
        obtain ⟨h1, h2, h3, h4⟩ := this.2 s' hs'
        exact ⟨h1, h2, h3, by omega, h4⟩
    · refine ⟨by simp, ?_⟩
      intro r h; cases h; trivial
  | some node =>
    simp only
    have hnl := node.dirent.nameLen.toNat_lt
    by_cases hname : s.offset + 14 + node.dirent.nameLen.toNat ≤ 2048
    · simp only [hname, decide_true, assert_true, ok_bind]
      generalize ho' : s.offset + 14 + node.dirent.nameLen.toNat +
        (4 - (s.offset + 14 + node.dirent.nameLen.toNat) % 4) % 4 = o'
      split
      · have := Scan.nextSector_spec hd { s with offset := o' } he hb
        constructor
        · apply (Returns.bind this.1 ?_).2; intros; exact Returns.ok _
        · intro r h
          rw [bind_eq_ok] at h
          obtain ⟨s', hs', h⟩ := h
          cases h
          obtain ⟨h1, h2, h3, h4'⟩ := this.2 s' hs'
          simp only at h2 h3
          refine ⟨h1, h3, ?_, by omega⟩
          simp only [Scan.left, h2, h3, h4']
          omega
      · refine ⟨by simp, ?_⟩
        intro r h; cases h
        refine ⟨⟨hb, by simp; omega, by simp; omega⟩, rfl, ?_, by simp⟩
        simp only [Scan.left]; omega
    · simp only [hname, decide_false, assert_false, panic_bind]
      exact ⟨by simp, by simp⟩

theorem Scan.nextLoop_spec {dev : Dev} (hd : dev.SaneBelow (2 ^ 44)) (fuel : Nat) (s : Scan)
    (he : s.endSector ≤ 2 ^ 33) (hi : s.Inv) (hlt : s.sector < s.endSector)
    (hf : s.endSector - s.sector ≤ fuel) :
    Scan.nextLoop dev fuel s ≠ .hang ∧ ∀ d s', Scan.nextLoop dev fuel s = .ok (some d, s') →
      s'.Inv ∧ s'.endSector = s.endSector ∧ s'.left < s.left ∧ s.sector ≤ s'.sector := by
  induction fuel generalizing s with
  | zero => omega
  | succ fuel ih =>
    obtain ⟨hnh, hspec⟩ := Scan.step_spec hd s he hi hlt
    unfold Scan.nextLoop
    cases hs : s.step dev with
    | hang => exact absurd hs hnh
    | err e => simp
    | panic => simp
    | ok r =>
      have := hspec r hs
      simp only [ok_bind]
      match r with
      | .inl s' =>
        simp only at this ⊢
        obtain ⟨h1, h2, h3, h4, h5⟩ := this
        obtain ⟨ih1, ih2⟩ := ih s' (by omega) h1 h4 (by omega)
        refine ⟨ih1, ?_⟩
        intro d s'' h
        obtain ⟨a, b, c, e⟩ := ih2 d s'' h
        refine ⟨a, by omega, ?_, by omega⟩
        have : s'.left ≤ s.left := by
          have := hi.2.1
          simp only [Scan.left, h2, h3, h5]; omega
        omega
      | .inr (none, s') => simp
      | .inr (some d, s') =>
        simp only at this ⊢
        refine ⟨by simp, ?_⟩
        intro d' s'' h
        simp at h
        obtain ⟨rfl, rfl⟩ := h
        exact this

theorem Scan.next_spec {dev : Dev} (hd : dev.SaneBelow (2 ^ 44)) (fuel : Nat) (s : Scan)
    (he : s.endSector ≤ 2 ^ 33) (hi : s.Inv) (hf : s.endSector - s.sector ≤ fuel) :
    s.next dev fuel ≠ .hang ∧ ∀ d s', s.next dev fuel = .ok (some d, s') →
      s'.Inv ∧ s'.endSector = s.endSector ∧ s'.left < s.left ∧ s.sector ≤ s'.sector := by
  unfold Scan.next
  split
  · simp
  · exact Scan.nextLoop_spec hd fuel s he hi (by omega) hf

theorem scanDrain_spec {dev : Dev} (hd : dev.SaneBelow (2 ^ 44)) (fuel : Nat) (s : Scan)
    (acc : List DirEnt) (he : s.endSector ≤ 2 ^ 33) (hi : s.Inv)
    (hf : s.left < fuel) (hf2 : s.endSector - s.sector ≤ fuel) :
    scanDrain dev fuel s acc ≠ .hang ∧ ∀ l, scanDrain dev fuel s acc = .ok l →
      l.length ≤ acc.length + s.left := by
  induction fuel generalizing s acc with
  | zero => omega
  | succ fuel ih =>
    obtain ⟨h1, h2⟩ := Scan.next_spec hd (fuel + 1) s he hi (by omega)
    unfold scanDrain
    cases hn : s.next dev (fuel + 1) with
    | hang => exact absurd hn h1
    | err e => simp
    | panic => simp
    | ok r =>
      simp only [ok_bind]
      match r with
      | (none, s') =>
        simp only
        refine ⟨by simp, ?_⟩
        intro l h; cases h; simp
      | (some d, s') =>
        obtain ⟨a, b, c, e⟩ := h2 d s' hn
        simp only
        have hle : s'.endSector - s'.sector ≤ s'.left + s'.offset / 16 := by
          simp only [Scan.left]; omega
        have hoff := a.2.1
        obtain ⟨i1, i2⟩ := ih s' (d :: acc) (by omega) a (by omega) (by
          simp only [Scan.left] at c hf ⊢
          omega)
        refine ⟨i1, ?_⟩
        intro l h
        have := i2 l h
        simp only [List.length_cons] at this
        omega

end Xdvdfs
