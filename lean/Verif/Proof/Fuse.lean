import Verif.Spec.Fuse
import Verif.Proof.Read

/-!
# Lemmas about mounted images
-/

namespace Xdvdfs
open Spec

/-! ## The inode cache -/

/-- The two maps are inverse to each other, and the numbers are from 2 to below the counter. -/
structure FuseCache.Inv (c : FuseCache) : Prop where
  inverse : ∀ d i, c.byEntry.lookup d = some i ↔ c.byInode.lookup i = some d
  range : ∀ i d, c.byInode.lookup i = some d → 2 ≤ i ∧ i < c.next
  start : 2 ≤ c.next

/-- Everything known before is known after. -/
def FuseCache.Ext (c c' : FuseCache) : Prop := ∀ i d, c.byInode.lookup i = some d → c'.byInode.lookup i = some d

theorem FuseCache.Ext.refl (c : FuseCache) : c.Ext c := fun _ _ h => h

theorem FuseCache.Ext.trans {a b c : FuseCache} (h : a.Ext b) (h' : b.Ext c) : a.Ext c := fun i d x => h' i d (h i d x)

theorem FuseCache.Inv.new : FuseCache.Inv .new := ⟨by simp [FuseCache.new], by simp [FuseCache.new], by simp [FuseCache.new]⟩

theorem getOrAssign_spec {c c' : FuseCache} {d : DirEnt} {i : Nat} (hc : c.Inv) (h : c.getOrAssign d = .ok (i, c')) :
    c'.Inv ∧ c.Ext c' ∧ c'.byInode.lookup i = some d := by
  unfold FuseCache.getOrAssign at h
  split at h
  · rename_i j hj
    cases h
    exact ⟨hc, .refl _, (hc.inverse d i).1 hj⟩
  · rename_i hn
    split at h
    · cases h
      have hfresh : ∀ d', c.byInode.lookup c.next ≠ some d' := by
        intro d' hd'
        have := (hc.range _ _ hd').2
        omega
      refine ⟨⟨?_, ?_, ?_⟩, ?_, ?_⟩
      · intro d' j
        simp only [List.lookup_cons]
        by_cases h1 : d' = d
        · subst h1
          simp only [beq_self_eq_true, if_true]
          by_cases h2 : j = c.next
          · subst h2; simp
          · have : (j == c.next) = false := by simpa using h2
            simp only [this]
            constructor
            · intro h; simp at h; exact absurd h.symm h2
            · intro h
              rw [← hc.inverse, hn] at h; cases h
        · have : (d' == d) = false := by simpa using h1
          simp only [this]
          by_cases h2 : j = c.next
          · subst h2
            simp only [beq_self_eq_true, if_true]
            constructor
            · intro h
              exact absurd ((hc.inverse _ _).1 h) (hfresh d')
            · intro h; simp at h; exact absurd h.symm h1
          · have : (j == c.next) = false := by simpa using h2
            simp only [this]
            exact hc.inverse d' j
      · intro j d' hj
        simp only [List.lookup_cons] at hj
        have := hc.start
        split at hj
        · rename_i h2
          have : j = c.next := by simpa using h2
          simp only; omega
        · have := hc.range _ _ hj
          simp only; omega
      · have := hc.start
        simp only; omega
      · intro j d' hj
        simp only [List.lookup_cons]
        split
        · rename_i h2
          have : j = c.next := by simpa using h2
          subst this
          exact absurd hj (hfresh d')
        · exact hj
      · simp [List.lookup_cons]
    · cases h

theorem getOrAssign_succeeds {c : FuseCache} (d : DirEnt) (h : c.next + 1 < 2 ^ 64) :
    ∃ i c', c.getOrAssign d = .ok (i, c') ∧ c'.next ≤ c.next + 1 := by
  unfold FuseCache.getOrAssign
  split
  · exact ⟨_, _, rfl, by omega⟩
  · rw [if_pos h]; exact ⟨_, _, rfl, by simp⟩

/-! ## Scanning -/

theorem nextLoop_mono {dev : Dev} : ∀ {f : Nat} {s : Scan} {r : Option DirEnt × Scan}, Scan.nextLoop dev f s = .ok r →
    ∀ f', f ≤ f' → Scan.nextLoop dev f' s = .ok r := by
  intro f
  induction f with
  | zero => intro s r h; cases h
  | succ f ih =>
    intro s r h f' hf
    obtain ⟨f', rfl⟩ : ∃ g, f' = g + 1 := ⟨f' - 1, by omega⟩
    unfold Scan.nextLoop at h ⊢
    obtain ⟨x, h1, h2⟩ := Res.bind_eq_ok.1 h
    rw [h1]
    simp only [Res.ok_bind]
    match x with
    | .inl s' => exact ih h2 f' (by omega)
    | .inr r' => exact h2

theorem next_mono {dev : Dev} {f : Nat} {s : Scan} {r : Option DirEnt × Scan} (h : s.next dev f = .ok r) {f' : Nat}
    (hf : f ≤ f') : s.next dev f' = .ok r := by
  unfold Scan.next at h ⊢
  split
  · rename_i h'; rw [if_pos h'] at h; exact h
  · rename_i h'; rw [if_neg h'] at h; exact nextLoop_mono h f' hf

/-- After the end the scan stays at the end. -/
theorem next_end {dev : Dev} {f : Nat} {s s' : Scan} (h : s.next dev f = .ok (none, s')) :
    s'.next dev f = .ok (none, s') := by
  unfold Scan.next at h
  split at h
  · rename_i h'
    cases h
    unfold Scan.next
    rw [if_pos h']
  · have key : ∀ (f : Nat) (s s' : Scan), Scan.nextLoop dev f s = .ok (none, s') →
        ∃ g, f = g + 1 ∧ s'.step dev = .ok (.inr (none, s')) := by
      intro f
      induction f with
      | zero => intro s s' h; cases h
      | succ f ih =>
        intro s s' h
        refine ⟨f, rfl, ?_⟩
        unfold Scan.nextLoop at h
        obtain ⟨x, h1, h2⟩ := Res.bind_eq_ok.1 h
        match x with
        | .inl s1 =>
          obtain ⟨_, _, e⟩ := ih _ _ h2
          exact e
        | .inr r =>
          cases h2
          have h1' := h1
          unfold Scan.step at h1'
          obtain ⟨_, _, h1'⟩ := Res.bind_eq_ok.1 h1'
          simp only at h1'
          split at h1'
          · split at h1'
            · obtain ⟨_, _, h1'⟩ := Res.bind_eq_ok.1 h1'
              cases h1'
            · cases h1'; exact h1
          · obtain ⟨_, _, h1'⟩ := Res.bind_eq_ok.1 h1'
            split at h1'
            · obtain ⟨_, _, h1'⟩ := Res.bind_eq_ok.1 h1'
              cases h1'
            · cases h1'
    obtain ⟨g, rfl, e⟩ := key _ _ _ h
    unfold Scan.next
    split
    · rfl
    · unfold Scan.nextLoop
      rw [e]
      rfl

/-- `ds` are all the entries from the scan position `s` on. -/
inductive Scans (m : Mount) : Scan → List DirEnt → Prop
  | nil {s s'} : s.next m.dev m.fuel = .ok (none, s') → Scans m s []
  | cons {s d s' ds} : s.next m.dev m.fuel = .ok (some d, s') → Scans m s' ds → Scans m s (d :: ds)

theorem scanDrain_scans {m : Mount} : ∀ {f : Nat} {s : Scan} {acc l : List DirEnt}, f ≤ m.fuel →
    scanDrain m.dev f s acc = .ok l → ∃ ds, l = acc.reverse ++ ds ∧ Scans m s ds ∧ ds.length < f := by
  intro f
  induction f with
  | zero => intro s acc l _ h; cases h
  | succ f ih =>
    intro s acc l hf h
    unfold scanDrain at h
    obtain ⟨⟨d, s'⟩, h1, h2⟩ := Res.bind_eq_ok.1 h
    have h1' := next_mono h1 hf
    cases d with
    | none =>
      cases h2
      exact ⟨[], by simp, .nil h1', by simp⟩
    | some d =>
      obtain ⟨ds, e1, e2, e3⟩ := ih (by omega) h2
      exact ⟨d :: ds, by simp [e1], .cons h1' e2, by simp; omega⟩

theorem scanAll_scans {m : Mount} {tab : Region} {ds : List DirEnt} (h : scanAll m.dev tab m.fuel = .ok ds) :
    ∃ s, scanInit m.dev tab = .ok s ∧ Scans m s ds ∧ ds.length < m.fuel := by
  unfold scanAll at h
  obtain ⟨s, h1, h2⟩ := Res.bind_eq_ok.1 h
  obtain ⟨ds', e1, e2, e3⟩ := scanDrain_scans (Nat.le_refl _) h2
  simp at e1
  subst e1
  exact ⟨s, h1, e2, e3⟩

theorem Scans.nth {m : Mount} {s : Scan} {ds : List DirEnt} (h : Scans m s ds) : ∀ j, nthEntry m j s = ds[j]? := by
  induction h with
  | nil h => intro j; cases j <;> simp [nthEntry, h]
  | cons h _ ih =>
    intro j
    cases j with
    | zero => simp [nthEntry, h]
    | succ j => simp [nthEntry, h, ih]

/-! ## Skipping -/

theorem skip_nth {m : Mount} : ∀ {n idx : Nat} {s s' : Scan} {idx' : Nat}, skipRecords m n idx s = .ok (idx', s') →
    ∃ k, idx' = idx + k ∧ ∀ j d, nthEntry m j s' = some d → nthEntry m (k + j) s = some d := by
  intro n
  induction n with
  | zero => intro idx s s' idx' h; cases h; exact ⟨0, rfl, by intro j d h; rw [Nat.zero_add]; exact h⟩
  | succ n ih =>
    intro idx s s' idx' h
    unfold skipRecords at h
    obtain ⟨⟨d, s1⟩, h1, h2⟩ := Res.bind_eq_ok.1 h
    cases d with
    | none =>
      cases h2
      refine ⟨0, rfl, ?_⟩
      intro j d hj
      have := next_end h1
      cases j <;> simp [nthEntry, this] at hj
    | some d0 =>
      obtain ⟨k, e1, e2⟩ := ih h2
      refine ⟨k + 1, by omega, ?_⟩
      intro j d hj
      have := e2 j d hj
      rw [show k + 1 + j = (k + j) + 1 by omega]
      simp only [nthEntry, h1]
      exact this

theorem Scans.skip {m : Mount} : ∀ (n idx : Nat) {s : Scan} {ds : List DirEnt}, Scans m s ds →
    ∃ s', skipRecords m n idx s = .ok (idx + min n ds.length, s') ∧ Scans m s' (ds.drop n) := by
  intro n
  induction n with
  | zero => intro idx s ds h; exact ⟨s, by simp [skipRecords], by simpa using h⟩
  | succ n ih =>
    intro idx s ds h
    cases h with
    | nil h =>
      rename_i s'
      exact ⟨s', by simp [skipRecords, h], by simpa using Scans.nil (next_end h)⟩
    | @cons _ d s' ds h h' =>
      obtain ⟨s2, e1, e2⟩ := ih (idx + 1) h'
      refine ⟨s2, ?_, by simpa using e2⟩
      simp only [skipRecords, h, Res.ok_bind, e1, List.length_cons]
      congr 2
      omega

/-! ## Adding records -/

theorem addRecords_spec {m : Mount} {full : List DirRec → DirRec → Bool} : ∀ {f idx : Nat} {s : Scan} {recs : List DirRec}
    {c c' : FuseCache} {reply : FuseReply}, c.Inv → addRecords m full f idx s recs c = .ok (reply, c') →
    c'.Inv ∧ c.Ext c' ∧ ∀ out, reply = .dir out → ∀ r ∈ out, r ∈ recs ∨
      ∃ j d, r.next = idx + j + 1 ∧ nthEntry m j s = some d ∧ c'.byInode.lookup r.ino = some d := by
  intro f
  induction f with
  | zero => intro idx s recs c c' reply _ h; cases h
  | succ f ih =>
    intro idx s recs c c' reply hc h
    unfold addRecords at h
    split at h
    · rename_i d s' hn
      obtain ⟨⟨i, c1⟩, h1, h2⟩ := Res.bind_eq_ok.1 h
      obtain ⟨g1, g2, g3⟩ := getOrAssign_spec hc h1
      simp only at h2
      split at h2
      · cases h2
        refine ⟨g1, g2, ?_⟩
        intro out ho r hr
        cases ho
        exact .inl hr
      · obtain ⟨k1, k2, k3⟩ := ih g1 h2
        refine ⟨k1, g2.trans k2, ?_⟩
        intro out ho r hr
        rcases k3 out ho r hr with h | ⟨j, d', e1, e2, e3⟩
        · rcases List.mem_append.1 h with h | h
          · exact .inl h
          · rw [List.mem_singleton] at h
            subst h
            exact .inr ⟨0, d, by simp, by simp [nthEntry, hn], k2 _ _ g3⟩
        · exact .inr ⟨j + 1, d', by omega, by simp [nthEntry, hn, e2], e3⟩
    · cases h
      refine ⟨hc, .refl _, ?_⟩
      intro out ho r hr
      cases ho
      exact .inl hr
    · cases h
      exact ⟨hc, .refl _, by intro out ho; cases ho⟩
    · cases h
    · cases h

/-- The key of an entry in a listing. -/
def entKey (d : DirEnt) : Str × Bool := (d.nameStr, d.node.dirent.isDirectory)

theorem Scans.add {m : Mount} {full : List DirRec → DirRec → Bool} : ∀ {f idx : Nat} {s : Scan} {ds : List DirEnt}
    {recs : List DirRec} {c c' : FuseCache} {reply : FuseReply}, Scans m s ds →
    addRecords m full f idx s recs c = .ok (reply, c') →
    ∃ out, reply = .dir (recs ++ out) ∧ out.map recKey = (ds.take out.length).map entKey ∧ out.length ≤ ds.length ∧
      (∀ j r, out[j]? = some r → r.next = idx + j + 1) ∧ (out.length < ds.length → ∃ r, full (recs ++ out) r = true) := by
  intro f
  induction f with
  | zero => intro idx s ds recs c c' reply _ h; cases h
  | succ f ih =>
    intro idx s ds recs c c' reply hs h
    unfold addRecords at h
    cases hs with
    | nil hn =>
      simp only [hn, Res.ok.injEq, Prod.mk.injEq] at h
      obtain ⟨rfl, rfl⟩ := h
      exact ⟨[], by simp, by simp, by simp, by simp, by simp⟩
    | @cons _ d s' ds hn hs' =>
      simp only [hn] at h
      obtain ⟨⟨i, c1⟩, h1, h2⟩ := Res.bind_eq_ok.1 h
      simp only at h2
      split at h2
      · rename_i hfull
        cases h2
        exact ⟨[], by simp, by simp, by simp, by simp, fun _ => ⟨_, by simpa using hfull⟩⟩
      · obtain ⟨out, e1, e2, e3, e4, e5⟩ := ih hs' h2
        refine ⟨⟨i, idx + 1, d.node.dirent.isDirectory, d.nameStr⟩ :: out, by rw [e1]; simp, ?_, by simp; omega, ?_, ?_⟩
        · simp only [List.map_cons, List.length_cons, List.take_succ_cons, e2]
          rfl
        · intro j r hr
          cases j with
          | zero => simp at hr; subst hr; rfl
          | succ j =>
            simp at hr
            have := e4 j r hr
            omega
        · intro hl
          obtain ⟨r, hr⟩ := e5 (by simp at hl; omega)
          exact ⟨r, by simpa using hr⟩

theorem Scans.add_succeeds {m : Mount} {full : List DirRec → DirRec → Bool} : ∀ {f idx : Nat} {s : Scan} {ds : List DirEnt}
    {recs : List DirRec} {c : FuseCache}, Scans m s ds → ds.length < f → c.next + ds.length < 2 ^ 64 →
    ∃ out c', addRecords m full f idx s recs c = .ok (.dir out, c') := by
  intro f
  induction f with
  | zero => intro idx s ds recs c _ h; omega
  | succ f ih =>
    intro idx s ds recs c hs hf hc
    unfold addRecords
    cases hs with
    | nil hn => simp only [hn]; exact ⟨_, _, rfl⟩
    | @cons _ d s' ds hn hs' =>
      simp only [hn]
      simp only [List.length_cons] at hf hc
      obtain ⟨i, c1, h1, h2⟩ := getOrAssign_succeeds (c := c) d (by omega)
      simp only [h1, Res.ok_bind]
      split
      · exact ⟨_, _, rfl⟩
      · exact ih hs' (by omega) (by omega)

/-! ## Requests -/

theorem table_ext {c c' : FuseCache} (h : c.Ext c') {root : Region} {ino : Nat} {tab : Region}
    (ht : c.table root ino = some tab) : c'.table root ino = some tab := by
  unfold FuseCache.table at ht ⊢
  split
  · rename_i h1; rw [if_pos h1] at ht; exact ht
  · rename_i h1
    rw [if_neg h1] at ht
    cases hl : c.byInode.lookup ino with
    | none => rw [hl] at ht; cases ht
    | some d => rw [hl] at ht; rw [h _ _ hl]; exact ht

theorem dotRecords_next {ino : Nat} {offset : Int} {full : List DirRec → DirRec → Bool} {recs : List DirRec}
    (h : dotRecords ino offset full = some recs) : ∀ r ∈ recs, r.next ≤ 2 := by
  unfold dotRecords at h
  simp only at h
  split at h
  · split at h
    · cases h
    · split at h
      · cases h
      · cases h; simp
  · split at h
    · split at h
      · cases h
      · cases h; simp
    · cases h; simp

theorem dotRecords_spec {ino o : Nat} {full : List DirRec → DirRec → Bool} {recs : List DirRec}
    (h : dotRecords ino o full = some recs) :
    ∃ k, recs.length = k ∧ k = 2 - o ∧
      (∀ rest : List (Str × Bool), recs.map recKey ++ rest = (((['.'], true) :: (['.', '.'], true) :: rest) : List (Str × Bool)).drop (2 - k)) ∧
      ∀ j r, recs[j]? = some r → r.next = o + j + 1 := by
  unfold dotRecords at h
  simp only at h
  split at h
  · rename_i h0
    have : o = 0 := by omega
    subst this
    split at h
    · cases h
    · split at h
      · cases h
      · cases h
        refine ⟨2, rfl, rfl, fun rest => rfl, ?_⟩
        intro j r hr
        match j with
        | 0 => simp at hr; subst hr; rfl
        | 1 => simp at hr; subst hr; rfl
        | j + 2 => simp at hr
  · split at h
    · have : o = 1 := by omega
      subst this
      split at h
      · cases h
      · cases h
        refine ⟨1, rfl, rfl, fun rest => rfl, ?_⟩
        intro j r hr
        match j with
        | 0 => simp at hr; subst hr; rfl
        | j + 1 => simp at hr
    · cases h
      exact ⟨0, rfl, by omega, fun rest => rfl, by simp⟩

theorem fuseStep_spec {m : Mount} {c c' : FuseCache} {op : FuseOp} {reply : FuseReply} (hc : c.Inv)
    (h : fuseStep m c op = .ok (reply, c')) :
    c'.Inv ∧ c.Ext c' ∧ ∀ i d, Tells m c op reply i d → c'.byInode.lookup i = some d := by
  have same : c' = c → (∀ i d, ¬ Tells m c op reply i d) → c'.Inv ∧ c.Ext c' ∧
      ∀ i d, Tells m c op reply i d → c'.byInode.lookup i = some d := by
    rintro rfl h
    exact ⟨hc, .refl _, fun i d ht => absurd ht (h i d)⟩
  cases op with
  | lookup parent name =>
    simp only [fuseStep, fuseLookup] at h
    split at h
    · cases h; exact same rfl (by intro i d h; cases h)
    · rename_i name
      split at h
      · cases h; exact same rfl (by intro i d h; cases h)
      · rename_i tab ht
        split at h
        · rename_i d hd
          obtain ⟨⟨i, c1⟩, h1, h2⟩ := Res.bind_eq_ok.1 h
          simp only [Res.pure_eq, Res.ok.injEq, Prod.mk.injEq] at h2
          obtain ⟨rfl, rfl⟩ := h2
          obtain ⟨g1, g2, g3⟩ := getOrAssign_spec hc h1
          refine ⟨g1, g2, ?_⟩
          intro j d' hT
          cases hT with
          | lookup ht' hd' =>
            rw [ht] at ht'; cases ht'
            rw [hd] at hd'; cases hd'
            exact g3
        · cases h; exact same rfl (by intro i d h; cases h)
        · cases h
        · cases h
  | getattr ino => cases h; exact same rfl (by intro i d h; cases h)
  | «open» ino flags => cases h; exact same rfl (by intro i d h; cases h)
  | read ino offset size =>
    simp only [fuseStep] at h
    obtain ⟨x, _, h2⟩ := Res.bind_eq_ok.1 h
    cases h2
    exact same rfl (by intro i d h; cases h)
  | opendir ino flags => cases h; exact same rfl (by intro i d h; cases h)
  | access ino => cases h; exact same rfl (by intro i d h; cases h)
  | readdir ino offset full =>
    simp only [fuseStep, fuseReaddir] at h
    split at h
    · cases h; exact same rfl (by intro i d h; cases h)
    · rename_i tab ht
      split at h
      · cases h
      · cases h
      · cases h; exact same rfl (by intro i d h; cases h)
      · rename_i s hs
        split at h
        · cases h; exact same rfl (by intro i d h; cases h)
        · rename_i recs0 hdots
          · split at h
            · cases h
            · cases h
            · cases h; exact same rfl (by intro i d h; cases h)
            · rename_i idx s' hskip
              obtain ⟨g1, g2, g3⟩ := addRecords_spec hc h
              refine ⟨g1, g2, ?_⟩
              intro i d hT
              cases hT with
              | @readdir _ _ _ tab' out r j d ht' hd' hr hnext =>
                rw [ht] at ht'; cases ht'
                simp only [tableEntry, hs] at hd'
                obtain ⟨k, e1, e2⟩ := skip_nth hskip
                rcases g3 out rfl r hr with hin | ⟨j', d', f1, f2, f3⟩
                · exfalso
                  have := dotRecords_next hdots r hin
                  omega
                · have := e2 _ _ f2
                  rw [show k + j' = j by omega, hd'] at this
                  cases this
                  exact f3

theorem fuseRun_spec {m : Mount} : ∀ {ops : List FuseOp} {c c' : FuseCache} {rs : List FuseReply}, c.Inv →
    fuseRun m c ops = .ok (rs, c') → c'.Inv ∧ c.Ext c' := by
  intro ops
  induction ops with
  | nil => intro c c' rs hc h; cases h; exact ⟨hc, .refl _⟩
  | cons op ops ih =>
    intro c c' rs hc h
    unfold fuseRun at h
    obtain ⟨⟨r, c1⟩, h1, h2⟩ := Res.bind_eq_ok.1 h
    obtain ⟨⟨rs', c2⟩, h3, h4⟩ := Res.bind_eq_ok.1 h2
    cases h4
    obtain ⟨g1, g2, _⟩ := fuseStep_spec hc h1
    obtain ⟨k1, k2⟩ := ih g1 h3
    exact ⟨k1, g2.trans k2⟩

theorem fuseRun_append {m : Mount} : ∀ {ops1 ops2 : List FuseOp} {c c' : FuseCache} {rs : List FuseReply},
    fuseRun m c (ops1 ++ ops2) = .ok (rs, c') ↔
    ∃ rs1 c1 rs2, fuseRun m c ops1 = .ok (rs1, c1) ∧ fuseRun m c1 ops2 = .ok (rs2, c') ∧ rs = rs1 ++ rs2 := by
  intro ops1
  induction ops1 with
  | nil =>
    intro ops2 c c' rs
    simp only [List.nil_append, fuseRun, Res.ok.injEq, Prod.mk.injEq]
    constructor
    · intro h; exact ⟨[], c, rs, ⟨rfl, rfl⟩, h, rfl⟩
    · rintro ⟨_, _, rs2, ⟨rfl, rfl⟩, h, rfl⟩; exact h
  | cons op ops1 ih =>
    intro ops2 c c' rs
    simp only [List.cons_append, fuseRun, Res.bind_eq_ok]
    constructor
    · rintro ⟨r, h1, ⟨rs', c2⟩, h2, h3⟩
      obtain ⟨rs1, c1, rs2, e1, e2, e3⟩ := ih.1 h2
      cases h3
      exact ⟨_, c1, rs2, ⟨r, h1, _, e1, rfl⟩, e2, by rw [e3]; rfl⟩
    · rintro ⟨rs1, c1, rs2, ⟨r, h1, ⟨rs', c2⟩, h2, h3⟩, h4, h5⟩
      cases h3
      exact ⟨r, h1, _, ih.2 ⟨_, _, _, h2, h4, rfl⟩, by rw [h5]; rfl⟩

theorem told_known {m : Mount} {ops : List FuseOp} {rs : List FuseReply} {c : FuseCache}
    (h : fuseRun m .new ops = .ok (rs, c)) {i : Nat} {d : DirEnt} (ht : Told m ops i d) :
    c.byInode.lookup i = some d := by
  obtain ⟨ops1, op, ops2, rs1, c1, r, c1', rfl, h1, h2, h3⟩ := ht
  obtain ⟨rs1', c2, rs2, e1, e2, _⟩ := fuseRun_append.1 h
  rw [h1] at e1
  cases e1
  have hinv := (fuseRun_spec .new h1).1
  obtain ⟨g1, g2, g3⟩ := fuseStep_spec hinv h2
  unfold fuseRun at e2
  rw [h2, Res.ok_bind] at e2
  obtain ⟨⟨rs', c3⟩, e3, e4⟩ := Res.bind_eq_ok.1 e2
  cases e4
  exact (fuseRun_spec g1 e3).2 _ _ (g3 i d h3)

/-! ## Listing a directory in pieces -/

theorem readdir_call {m : Mount} {c c' : FuseCache} {ino o : Nat} {full : List DirRec → DirRec → Bool} {tab : Region}
    {ds : List DirEnt} {recs : List DirRec} (ht : c.table m.root ino = some tab)
    (hs : scanAll m.dev tab m.fuel = .ok ds) (h : fuseStep m c (.readdir ino (o : Nat) full) = .ok (.dir recs, c')) :
    recs.map recKey = ((fullListing ds).drop o).take recs.length ∧ recs.length ≤ (fullListing ds).length - o ∧
    (∀ j r, recs[j]? = some r → r.next = o + j + 1) ∧
    (recs.length < (fullListing ds).length - o → ∃ r, full recs r = true) := by
  obtain ⟨s, hi, hsc, _⟩ := scanAll_scans hs
  simp only [fuseStep, fuseReaddir, ht, hi] at h
  split at h
  · cases h
  · rename_i recs0 hdots
    obtain ⟨s', e1, e2⟩ := hsc.skip ((o : Int) - 2).toNat 2
    rw [e1] at h
    simp only at h
    have hk : ((o : Int) - 2).toNat = o - 2 := by omega
    rw [hk] at e2 h
    obtain ⟨out, f1, f2, f3, f4, f5⟩ := e2.add h
    simp only [FuseReply.dir.injEq] at f1
    subst f1
    have hL : (fullListing ds).length = ds.length + 2 := by simp [fullListing]
    obtain ⟨k, d1, d2, d3, d4⟩ := dotRecords_spec hdots
    have hmap : out.map recKey = (((ds.map entKey).drop (o - 2))).take out.length := by
      rw [f2, List.map_take, List.map_drop]
    have hdrop : (fullListing ds).drop o = recs0.map recKey ++ (ds.map entKey).drop (o - 2) := by
      rcases Nat.lt_or_ge o 2 with ho | ho
      · have : o - 2 = 0 := by omega
        rw [this, List.drop_zero, d3]
        show List.drop o ((['.'], true) :: (['.', '.'], true) :: ds.map entKey) = _
        congr 1; omega
      · have h0 : recs0 = [] := List.eq_nil_of_length_eq_zero (by omega)
        obtain ⟨j, rfl⟩ : ∃ j, o = j + 2 := ⟨o - 2, by omega⟩
        rw [h0]
        show List.drop (j + 2) ((['.'], true) :: (['.', '.'], true) :: ds.map entKey) = _
        simp
    rw [List.length_drop] at f3 f5
    refine ⟨?_, by simp only [List.length_append, hL]; omega, ?_, ?_⟩
    · rw [hdrop, List.map_append, hmap, List.length_append]
      rw [List.take_append, List.length_map, Nat.add_sub_cancel_left,
        List.take_of_length_le (by simp : (recs0.map recKey).length ≤ recs0.length + out.length)]
    · intro j r hr
      rcases Nat.lt_or_ge j recs0.length with hj | hj
      · rw [List.getElem?_append_left hj] at hr
        exact d4 j r hr
      · rw [List.getElem?_append_right hj] at hr
        have := f4 _ _ hr
        have := (List.getElem?_eq_some_iff.1 hr).1
        omega
    · intro hl
      simp only [List.length_append, hL] at hl
      exact f5 (by omega)

theorem readsDir_spec {m : Mount} {ino : Nat} {tab : Region} {ds : List DirEnt}
    (hs : scanAll m.dev tab m.fuel = .ok ds) {c : FuseCache} {o : Nat} {recs : List DirRec}
    (h : ReadsDir m ino c o recs) : c.Inv → c.table m.root ino = some tab →
    recs.map recKey = (fullListing ds).drop o ∧ ∀ j r, recs[j]? = some r → r.next = o + j + 1 := by
  induction h with
  | @done c o full c' hroom h =>
    intro hc ht
    obtain ⟨_, _, _, h4⟩ := readdir_call ht hs h
    refine ⟨?_, by simp⟩
    rw [List.map_nil, eq_comm, List.drop_eq_nil_iff]
    rcases Nat.lt_or_ge o (fullListing ds).length with hl | hl
    · obtain ⟨r, hr⟩ := h4 (by simp only [List.length_nil]; omega)
      rw [hroom] at hr; cases hr
    · exact hl
  | @more c o full c' recs r ops rs c'' rest hroom h hlast hrun _ ih =>
    intro hc ht
    obtain ⟨h1, h2, h3, _⟩ := readdir_call ht hs h
    obtain ⟨g1, g2, _⟩ := fuseStep_spec hc h
    obtain ⟨k1, k2⟩ := fuseRun_spec g1 hrun
    obtain ⟨i1, i2⟩ := ih k1 (table_ext (g2.trans k2) ht)
    have hne : 0 < recs.length := by
      cases recs with
      | nil => cases hlast
      | cons _ _ => simp
    have hr : r.next = o + recs.length := by
      rw [List.getLast?_eq_getElem?] at hlast
      have := h3 _ _ hlast
      omega
    rw [hr] at i1 i2
    constructor
    · rw [List.map_append, h1, i1, ← List.drop_drop, List.take_append_drop]
    · intro j x hx
      rcases Nat.lt_or_ge j recs.length with hj | hj
      · rw [List.getElem?_append_left hj] at hx
        exact h3 j x hx
      · rw [List.getElem?_append_right hj] at hx
        have := i2 _ _ hx
        omega

end Xdvdfs
