import Verif.Proof.BrowserUnpack
import Verif.Proof.Compress

/-!
# Compressing in the browser
-/

namespace Xdvdfs

open Spec

/-- Nothing changes but that new, empty files appear at these places. -/
def Creates (P : HostPath → Prop) (a z : HostFs) : Prop :=
  ∀ q, z q = a q ∨ (a q = none ∧ z q = some (.file []) ∧ P q)

theorem Creates.refl (P : HostPath → Prop) (a : HostFs) : Creates P a a := fun _ => .inl rfl

theorem Creates.trans {P : HostPath → Prop} {a m z : HostFs} (h1 : Creates P a m) (h2 : Creates P m z) : Creates P a z := by
  intro q
  rcases h1 q with k1 | ⟨k1, k2, k3⟩
  · rcases h2 q with j1 | ⟨j1, j2, j3⟩
    · exact .inl (by rw [j1, k1])
    · exact .inr ⟨by rw [← k1, j1], j2, j3⟩
  · rcases h2 q with j1 | ⟨j1, _, _⟩
    · exact .inr ⟨k1, by rw [j1, k2], k3⟩
    · rw [k2] at j1; cases j1

theorem Creates.mono {P Q : HostPath → Prop} {a z : HostFs} (h : Creates P a z) (hpq : ∀ q, P q → Q q) : Creates Q a z := by
  intro q
  rcases h q with k | ⟨k1, k2, k3⟩
  · exact .inl k
  · exact .inr ⟨k1, k2, hpq q k3⟩

/-- What exists stays as it is. -/
theorem Creates.keeps {P : HostPath → Prop} {a z : HostFs} (h : Creates P a z) {q : HostPath} {x : HostNode}
    (hq : a q = some x) : z q = some x := by
  rcases h q with k | ⟨k, _, _⟩
  · rw [k, hq]
  · rw [hq] at k; cases k

variable {b : Browser} {c : Ciso} {dest : HostPath} {name : Str}

theorem webCreateFile_creates {fs fs' : HostFs} {n : Str} (h : webCreateFile b fs dest n = .ok fs') :
    Creates (fun q => q = dest ++ [n]) fs fs' ∧ ∃ x, fs' (dest ++ [n]) = some (.file x) := by
  unfold webCreateFile at h
  split at h
  · split at h
    · cases h
    · next x hx => cases h; exact ⟨.refl _ _, x, hx⟩
    · next hx =>
      split at h
      · cases h
      · cases h
        refine ⟨fun q => ?_, [], set_same _ _ _⟩
        by_cases hq : q = dest ++ [n]
        · subst hq; exact .inr ⟨hx, set_same _ _ _, rfl⟩
        · exact .inl (set_other hq)
  · cases h

theorem webCreateParts_creates : ∀ (n i : Nat) (fs : HostFs),
    Creates (fun q => ∃ j, i ≤ j ∧ j < i + n ∧ q = dest ++ [c.partName name j]) fs (webCreateParts b c dest name n i fs).2 := by
  intro n
  induction n with
  | zero => intro i fs; exact .refl _ _
  | succ n ih =>
    intro i fs
    unfold webCreateParts
    cases hc : webCreateFile b fs dest (c.partName name i) with
    | ok fs1 =>
      simp only
      have h1 : Creates (fun q => ∃ j, i ≤ j ∧ j < i + (n + 1) ∧ q = dest ++ [c.partName name j]) fs fs1 :=
        (webCreateFile_creates hc).1.mono (fun q hq => ⟨i, Nat.le_refl _, by omega, hq⟩)
      split
      · exact h1.trans ((ih (i + 1) fs1).mono (fun q ⟨j, k1, k2, k3⟩ => ⟨j, by omega, by omega, k3⟩))
      · exact h1
    | err e => exact .refl _ _
    | panic => exact .refl _ _
    | hang => exact .refl _ _

theorem webCreateParts_files : ∀ (n i : Nat) {fs : HostFs}, (webCreateParts b c dest name n i fs).1 = .ok () →
    ∀ j, i ≤ j → j < i + n → ∃ x, (webCreateParts b c dest name n i fs).2 (dest ++ [c.partName name j]) = some (.file x) := by
  intro n
  induction n with
  | zero => intro i fs _ j h1 h2; omega
  | succ n ih =>
    intro i fs h j h1 h2
    unfold webCreateParts at h ⊢
    cases hc : webCreateFile b fs dest (c.partName name i) with
    | ok fs1 =>
      rw [hc] at h
      simp only at h ⊢
      split
      · next hw =>
        rw [if_pos hw] at h
        by_cases hj : j = i
        · subst hj
          obtain ⟨x, hx⟩ := (webCreateFile_creates hc).2
          exact ⟨x, (webCreateParts_creates n (j + 1) fs1).keeps hx⟩
        · exact ih (i + 1) h j (by omega) (by omega)
      · next hw => rw [if_neg hw] at h; cases h
    | err e => rw [hc] at h; cases h
    | panic => rw [hc] at h; cases h
    | hang => rw [hc] at h; cases h

theorem webCreateParts_works (hg : Grants b) (hn : ∀ j, webName (c.partName name j) = true) :
    ∀ (n i : Nat) {fs : HostFs}, fs dest = some .dir → (∀ j, fs (dest ++ [c.partName name j]) ≠ some .dir) →
    (webCreateParts b c dest name n i fs).1 = .ok () := by
  intro n
  induction n with
  | zero => intro i fs _ _; rfl
  | succ n ih =>
    intro i fs hd hp
    obtain ⟨fs1, hc⟩ : ∃ fs1, webCreateFile b fs dest (c.partName name i) = .ok fs1 := by
      unfold webCreateFile
      rw [if_pos (hn i)]
      cases hx : fs (dest ++ [c.partName name i]) with
      | none => simp only; rw [if_neg (by simp [(hg.1 _).2.2.1, hd])]; exact ⟨_, rfl⟩
      | some y =>
        cases y with
        | dir => exact absurd hx (hp i)
        | file x => exact ⟨_, rfl⟩
    obtain ⟨h1, x, hx⟩ := webCreateFile_creates hc
    unfold webCreateParts
    rw [hc]
    simp only
    rw [if_pos (by unfold canWrite; rw [(hg.1 _).2.2.2.1, hx]; rfl)]
    refine ih (i + 1) (h1.keeps hd) (fun j hj => ?_)
    rcases h1 (dest ++ [c.partName name j]) with k | ⟨_, k, _⟩
    · rw [k] at hj; exact hp j hj
    · rw [k] at hj; cases hj

/-- Whatever happens while closing: only parts change, and if they are files, directories stay what they are. -/
theorem webCloseParts_changes : ∀ (xs : List Bytes) (i : Nat) (fs : HostFs) (q : HostPath),
    (webCloseParts b c dest name i xs fs).2 q = fs q ∨
    (∃ j, i ≤ j ∧ j < i + xs.length ∧ q = dest ++ [c.partName name j]) ∧
      ∃ x, (webCloseParts b c dest name i xs fs).2 q = some (.file x) := by
  intro xs
  induction xs with
  | nil => intro i fs q; exact .inl rfl
  | cons x xs ih =>
    intro i fs q
    unfold webCloseParts
    split
    · exact .inl rfl
    · rcases ih (i + 1) (fs.set (dest ++ [c.partName name i]) (.file x)) q with k | ⟨⟨j, k1, k2, k3⟩, k4⟩
      · by_cases hq : q = dest ++ [c.partName name i]
        · subst hq
          exact .inr ⟨⟨i, Nat.le_refl _, by simp, rfl⟩, x, by rw [k]; exact set_same _ _ _⟩
        · exact .inl (by rw [k]; exact set_other hq)
      · exact .inr ⟨⟨j, by omega, by simp; omega, k3⟩, k4⟩

theorem webCloseParts_ok (hinj : ∀ i j, c.partName name i = c.partName name j → i = j) :
    ∀ (xs : List Bytes) (i : Nat) {fs : HostFs}, (webCloseParts b c dest name i xs fs).1 = .ok () →
    ∀ k x, xs[k]? = some x → (webCloseParts b c dest name i xs fs).2 (dest ++ [c.partName name (i + k)]) = some (.file x) := by
  intro xs
  induction xs with
  | nil => intro i fs _ k x hx; simp at hx
  | cons y ys ih =>
    intro i fs h k x hx
    unfold webCloseParts at h ⊢
    split at h
    · cases h
    · next hc =>
      rw [if_neg hc]
      cases k with
      | zero =>
        simp only [List.getElem?_cons_zero, Option.some.injEq] at hx
        subst hx
        rcases webCloseParts_changes (b := b) (c := c) (dest := dest) (name := name) ys (i + 1)
          (fs.set (dest ++ [c.partName name i]) (.file y)) (dest ++ [c.partName name i]) with k | ⟨⟨j, k1, _, k3⟩, _⟩
        · exact k.trans (set_same _ _ _)
        · have := hinj i j (by simpa using k3)
          omega
      | succ k =>
        rw [List.getElem?_cons_succ] at hx
        have := ih (i + 1) h k x hx
        rwa [show i + 1 + k = i + (k + 1) by omega] at this

theorem webCloseParts_works (hg : Grants b) : ∀ (xs : List Bytes) (i : Nat) (fs : HostFs),
    (webCloseParts b c dest name i xs fs).1 = .ok () := by
  intro xs
  induction xs with
  | nil => intro i fs; rfl
  | cons x xs ih =>
    intro i fs
    unfold webCloseParts
    rw [if_neg (by simp [(hg.1 _).2.2.2.2])]
    exact ih _ _

theorem webCloseParts_no_err : ∀ (xs : List Bytes) (i : Nat) (fs : HostFs) (e : Err),
    (webCloseParts b c dest name i xs fs).1 ≠ .err e := by
  intro xs
  induction xs with
  | nil => intro i fs e; nofun
  | cons x xs ih =>
    intro i fs e
    unfold webCloseParts
    split
    · nofun
    · exact ih _ _ _

/-! ## The loop -/

variable {copy : HostFs → BufCopier} {m : SecMap}

/-- Before the streams are closed, nothing changes but that parts appear, which are empty. -/
theorem webEncodeLoop_before : ∀ (n : Nat) (secs : List Bytes) (fs : HostFs),
    ∃ fs1, Creates (fun q => ∃ j, q = dest ++ [c.partName name j]) fs fs1 ∧
      ((webEncodeLoop b c dest name copy m n secs fs).2 = fs1 ∧ (webEncodeLoop b c dest name copy m n secs fs).1 ≠ .ok () ∨
       ∃ xs, webEncodeLoop b c dest name copy m n secs fs = webCloseParts b c dest name 0 xs fs1 ∧
        ∀ j, j < xs.length → ∃ x, fs1 (dest ++ [c.partName name j]) = some (.file x)) := by
  intro n
  induction n with
  | zero =>
    intro secs fs
    unfold webEncodeLoop
    have h1 := webCreateParts_creates (b := b) (c := c) (dest := dest) (name := name) (c.final secs.length secs).length 0 fs
    have h2 := webCreateParts_files (b := b) (c := c) (dest := dest) (name := name) (c.final secs.length secs).length 0 (fs := fs)
    rcases hx : webCreateParts b c dest name (c.final secs.length secs).length 0 fs with ⟨r, fs1⟩
    rw [hx] at h1 h2
    have h1' := h1.mono (Q := fun q => ∃ j, q = dest ++ [c.partName name j]) (fun q ⟨j, _, _, k⟩ => ⟨j, k⟩)
    refine ⟨fs1, h1', ?_⟩
    cases r with
    | ok u =>
      simp only
      split
      · exact .inl ⟨rfl, nofun⟩
      · exact .inr ⟨_, rfl, fun j hj => h2 rfl j (Nat.zero_le _) (by omega)⟩
    | err e => exact .inl ⟨rfl, nofun⟩
    | panic => exact .inl ⟨rfl, nofun⟩
    | hang => exact .inl ⟨rfl, nofun⟩
  | succ n ih =>
    intro secs fs
    unfold webEncodeLoop
    have h1 := webCreateParts_creates (b := b) (c := c) (dest := dest) (name := name)
      (c.partial_ (secs.length + n + 1) secs).length 0 fs
    rcases hx : webCreateParts b c dest name (c.partial_ (secs.length + n + 1) secs).length 0 fs with ⟨r, fs1⟩
    rw [hx] at h1
    have h1' := h1.mono (Q := fun q => ∃ j, q = dest ++ [c.partName name j]) (fun q ⟨j, _, _, k⟩ => ⟨j, k⟩)
    cases r with
    | ok u =>
      simp only
      split
      · exact ⟨fs1, h1', .inl ⟨rfl, nofun⟩⟩
      · cases readSector (copy fs1) m secs.length 2048 with
        | ok sec =>
          simp only
          obtain ⟨fs2, k1, k2⟩ := ih (secs ++ [sec]) fs1
          exact ⟨fs2, h1'.trans k1, k2⟩
        | err e => exact ⟨fs1, h1', .inl ⟨rfl, nofun⟩⟩
        | panic => exact ⟨fs1, h1', .inl ⟨rfl, nofun⟩⟩
        | hang => exact ⟨fs1, h1', .inl ⟨rfl, nofun⟩⟩
    | err e => exact ⟨fs1, h1', .inl ⟨rfl, nofun⟩⟩
    | panic => exact ⟨fs1, h1', .inl ⟨rfl, nofun⟩⟩
    | hang => exact ⟨fs1, h1', .inl ⟨rfl, nofun⟩⟩

/-- What the copier delivers does not depend on new, empty files. -/
def WebStable (c : Ciso) (dest : HostPath) (name : Str) (copy : HostFs → BufCopier) (m : SecMap) (fs : HostFs) : Prop :=
  ∀ fs2, Creates (fun q => ∃ j, q = dest ++ [c.partName name j]) fs fs2 → ∀ k,
    readSector (copy fs2) m k 2048 = readSector (copy fs) m k 2048

theorem webEncodeLoop_ok {fs0 : HostFs} (hst : WebStable c dest name copy m fs0) :
    ∀ (n : Nat) (secs : List Bytes) {fs : HostFs},
    Creates (fun q => ∃ j, q = dest ++ [c.partName name j]) fs0 fs →
    (webEncodeLoop b c dest name copy m n secs fs).1 = .ok () →
    ∃ rest, rest.length = n ∧
      (∀ k x, rest[k]? = some x → readSector (copy fs0) m (secs.length + k) 2048 = .ok x) ∧
      ∃ fs1, (∀ N, (∀ k, secs.length ≤ k → k < secs.length + n →
            (c.partial_ (secs.length + n) ((secs ++ rest).take k)).length ≤ N) →
          (c.final (secs.length + n) (secs ++ rest)).length ≤ N →
          Creates (fun q => ∃ j, j < N ∧ q = dest ++ [c.partName name j]) fs fs1) ∧
        webEncodeLoop b c dest name copy m n secs fs =
          webCloseParts b c dest name 0 (c.final (secs.length + n) (secs ++ rest)) fs1 := by
  intro n
  induction n with
  | zero =>
    intro secs fs hch hw
    unfold webEncodeLoop at hw ⊢
    have h1 := webCreateParts_creates (b := b) (c := c) (dest := dest) (name := name) (c.final secs.length secs).length 0 fs
    rcases hx : webCreateParts b c dest name (c.final secs.length secs).length 0 fs with ⟨r, fs1⟩
    rw [hx] at h1 hw
    cases r with
    | ok u =>
      simp only at hw ⊢
      split at hw
      · cases hw
      · next hf =>
        rw [if_neg hf]
        refine ⟨[], rfl, by simp, fs1, fun N _ hN => h1.mono (fun q ⟨j, _, k2, k3⟩ => ⟨j, ?_, k3⟩), ?_⟩
        · simp only [Nat.add_zero, List.append_nil] at hN; omega
        · rw [List.append_nil]; rfl
    | err e => cases hw
    | panic => cases hw
    | hang => cases hw
  | succ n ih =>
    intro secs fs hch hw
    unfold webEncodeLoop at hw ⊢
    have h1 := webCreateParts_creates (b := b) (c := c) (dest := dest) (name := name)
      (c.partial_ (secs.length + n + 1) secs).length 0 fs
    rcases hx : webCreateParts b c dest name (c.partial_ (secs.length + n + 1) secs).length 0 fs with ⟨r, fs1⟩
    rw [hx] at h1 hw
    have h1' := h1.mono (Q := fun q => ∃ j, q = dest ++ [c.partName name j]) (fun q ⟨j, _, _, k⟩ => ⟨j, k⟩)
    cases r with
    | ok u =>
      simp only at hw ⊢
      split at hw
      · cases hw
      · next hf =>
        rw [if_neg hf]
        rw [hst _ (hch.trans h1')] at hw ⊢
        cases hr : readSector (copy fs0) m secs.length 2048 with
        | ok sec =>
          rw [hr] at hw
          simp only at hw ⊢
          obtain ⟨rest, k1, k2, fs2, k3, k4⟩ := ih (secs ++ [sec]) (hch.trans h1') hw
          have e1 : (secs ++ [sec]).length + n = secs.length + (n + 1) := by simp; omega
          have e2 : secs ++ [sec] ++ rest = secs ++ (sec :: rest) := by simp
          rw [e1, e2] at k4
          refine ⟨sec :: rest, by simp [k1], ?_, fs2, ?_, k4⟩
          · intro k x hk
            cases k with
            | zero => simp at hk; subst hk; exact hr
            | succ k =>
              rw [List.getElem?_cons_succ] at hk
              have := k2 k x hk
              simpa [Nat.add_assoc, Nat.add_comm 1 k] using this
          · intro N hN1 hN2
            refine Creates.trans (h1.mono ?_) (k3 N ?_ ?_)
            · rintro q ⟨j, _, j2, j3⟩
              refine ⟨j, ?_, j3⟩
              have := hN1 secs.length (Nat.le_refl _) (by omega)
              rw [List.take_left] at this
              rw [show secs.length + (n + 1) = secs.length + n + 1 by omega] at this
              omega
            · intro k hk1 hk2
              rw [e1, e2]
              exact hN1 k (by simp at hk1; omega) (by rw [e1] at hk2; exact hk2)
            · rw [e1, e2]; exact hN2
        | err e => rw [hr] at hw; cases hw
        | panic => rw [hr] at hw; cases hw
        | hang => rw [hr] at hw; cases hw
    | err e => cases hw
    | panic => cases hw
    | hang => cases hw

theorem webEncodeLoop_works (hg : Grants b) (hn : ∀ j, webName (c.partName name j) = true) {fs0 : HostFs}
    (hst : WebStable c dest name copy m fs0) (hd : fs0 dest = some .dir)
    (hp : ∀ j, fs0 (dest ++ [c.partName name j]) ≠ some .dir) :
    ∀ (n : Nat) (secs : List Bytes) {fs : HostFs},
    Creates (fun q => ∃ j, q = dest ++ [c.partName name j]) fs0 fs →
    (∀ k, secs.length ≤ k → k < secs.length + n → ∃ x, readSector (copy fs0) m k 2048 = .ok x) →
    (webEncodeLoop b c dest name copy m n secs fs).1 = .ok () := by
  have go : ∀ {fs : HostFs} (n : Nat), Creates (fun q => ∃ j, q = dest ++ [c.partName name j]) fs0 fs →
      ∃ fs', webCreateParts b c dest name n 0 fs = (.ok (), fs') := by
    intro fs n hch
    have := webCreateParts_works hg hn n 0 (fs := fs) (hch.keeps hd) (fun j hj => by
      rcases hch (dest ++ [c.partName name j]) with k | ⟨_, k, _⟩
      · rw [k] at hj; exact hp j hj
      · rw [k] at hj; cases hj)
    exact ⟨_, Prod.ext this rfl⟩
  intro n
  induction n with
  | zero =>
    intro secs fs hch _
    obtain ⟨fs1, h1⟩ := go (c.final secs.length secs).length hch
    unfold webEncodeLoop
    rw [h1]
    simp only
    rw [if_neg (by simp [hg.2])]
    exact webCloseParts_works hg _ _ _
  | succ n ih =>
    intro secs fs hch hr
    obtain ⟨fs1, h1⟩ := go (c.partial_ (secs.length + n + 1) secs).length hch
    have hc := webCreateParts_creates (b := b) (c := c) (dest := dest) (name := name)
      (c.partial_ (secs.length + n + 1) secs).length 0 fs
    rw [h1] at hc
    have hch1 := hch.trans (hc.mono (Q := fun q => ∃ j, q = dest ++ [c.partName name j]) (fun q ⟨j, _, _, k⟩ => ⟨j, k⟩))
    obtain ⟨x, hx⟩ := hr secs.length (Nat.le_refl _) (by omega)
    unfold webEncodeLoop
    rw [h1]
    simp only
    rw [if_neg (by simp [hg.2]), hst _ hch1, hx]
    refine ih _ hch1 ?_
    intro k hk1 hk2
    simp at hk1 hk2
    exact hr k (by omega) (by omega)

/-- A successful encoding stores the parts of the image that the sectors make, and changes nothing else. -/
theorem web_encode_stored (hc : CisoWorks c) (hinj : ∀ i j, c.partName name i = c.partName name j → i = j) {fs : HostFs}
    (hk : KeepsLength (copy fs)) (hst : WebStable c dest name copy m fs) {n : Nat}
    (hw : (webEncodeLoop b c dest name copy m n [] fs).1 = .ok ()) :
    ∃ img, viewBytes (copy fs) m n = .ok img ∧ img.length = 2048 * n ∧
      (∀ i x, (partsOf c img)[i]? = some x →
        (webEncodeLoop b c dest name copy m n [] fs).2 (dest ++ [c.partName name i]) = some (.file x)) ∧
      ∀ q, (∀ i, i < (partsOf c img).length → q ≠ dest ++ [c.partName name i]) →
        (webEncodeLoop b c dest name copy m n [] fs).2 q = fs q := by
  obtain ⟨rest, k1, k2, fs1, k3, k4⟩ := webEncodeLoop_ok hst n [] (.refl _ _) hw
  simp only [List.length_nil, Nat.zero_add, List.nil_append] at k2 k3 k4
  have hlen : ∀ s ∈ rest, s.length = 2048 := by
    intro s hs
    obtain ⟨k, hk', rfl⟩ := List.mem_iff_getElem.1 hs
    exact readSector_length hk (k2 k _ (List.getElem?_eq_getElem hk'))
  have hv := view_rest k2 n (by omega)
  rw [← k1, List.take_length, k1] at hv
  have hp : partsOf c rest.flatten = c.final n rest := by
    unfold partsOf
    rw [sectorsOf_flatten hlen, k1]
  rw [k4] at hw ⊢
  refine ⟨rest.flatten, hv, by rw [(flatten_sectors hlen).1, k1], ?_⟩
  rw [hp]
  refine ⟨fun i x hi => by have := webCloseParts_ok hinj _ 0 hw i x hi; rwa [Nat.zero_add] at this, ?_⟩
  intro q hq
  have hcr := k3 (c.final n rest).length (fun k _ _ => by
    have := (hc rest hlen).2.2 k
    rwa [k1] at this) (Nat.le_refl _)
  rcases webCloseParts_changes (b := b) (c := c) (dest := dest) (name := name) (c.final n rest) 0 fs1 q with
    j | ⟨⟨j, j1, j2, j3⟩, _⟩
  · rw [j]
    rcases hcr q with l | ⟨_, _, j, l1, l2⟩
    · exact l
    · exact absurd l2 (hq j l1)
  · exact absurd j3 (hq j (by omega))

/-! ## Folders -/

section
variable {fs : HostFs} {root : HostPath} {t : WebTree} {fuel : Nat}

theorem webEntries_mem {dir : HostPath} : ∀ {es : List (Str × WebTree)} {l : List FileEntry} {e : FileEntry},
    webEntries b fs dir es = .ok l → e ∈ l → ∃ x ∈ es, webEntry b fs dir x = .ok e := by
  intro es
  induction es with
  | nil => intro l e h he; cases h; cases he
  | cons x es ih =>
    intro l e h he
    simp only [webEntries] at h
    obtain ⟨e1, h1, h⟩ := Res.bind_eq_ok.1 h
    obtain ⟨l', h2, h⟩ := Res.bind_eq_ok.1 h
    cases h
    rcases List.mem_cons.1 he with rfl | he
    · exact ⟨x, by simp, h1⟩
    · obtain ⟨y, hy, k⟩ := ih h2 he
      exact ⟨y, by simp [hy], k⟩

/-- A file that was listed can be read. -/
theorem web_entry_file (ht : populate b fs fuel root = .ok t) (hroot : fs root = some .dir) {p : Path} {e : FileEntry}
    (he : EntryIn (webFs b fs root t).readDir p e) (hd : e.isDir = false) :
    ∃ d, t.walk (p ++ [e.name]) = some .file ∧ getFile b fs (root ++ (p ++ [e.name])) = some d ∧ d.length = e.len := by
  rcases std_entry_host (web_entry_std ht he) with ⟨hx, _⟩ | ⟨_, d, hf, hlen⟩
  · rw [hd] at hx; cases hx
  · obtain ⟨es, hes⟩ := web_dir_walk ht hroot he.1
    obtain ⟨l, hl, hel⟩ := he.2
    have hl' : webReadDir b fs root t p = .ok l := hl
    unfold webReadDir at hl'
    rw [hes] at hl'
    simp only at hl'
    obtain ⟨t', ht'⟩ := nameGet_some (webEntries_sub hl' hel)
    have hw : t.walk (p ++ [e.name]) = some t' := by
      rw [walk_append, hes]
      simp only [Option.bind_some, WebTree.walk]
      rw [ht']
    obtain ⟨f, hpf⟩ := walk_ok _ ht hw
    rcases populate_ok hpf with ⟨_, rfl⟩ | ⟨hx, _⟩
    · refine ⟨d, hw, ?_, hlen.symm⟩
      obtain ⟨x, _, hx⟩ := webEntries_mem hl' hel
      unfold webEntry at hx
      split at hx
      · split at hx
        · next d' hg =>
          cases hx
          rw [List.append_assoc] at hg
          simp only at hf
          have := (getFile_some hg).1
          rw [hf] at this
          cases this
          exact hg
        · cases hx
      · cases hx; cases hd
    · rw [hf] at hx; cases hx

theorem webBufCopy_keeps : KeepsLength (webBufCopy b fs root t) := by
  intro p dest off size n x hc _
  unfold webBufCopy at hc
  split at hc
  · split at hc
    · simp only at hc
      split at hc
      · cases hc
      · split at hc
        · cases hc
        · next h1 h2 =>
          simp only [Res.ok.injEq, Prod.mk.injEq] at hc
          rw [← hc.2]
          simp only [List.length_append, List.length_take, List.length_replicate, List.length_drop] at h2 ⊢
          omega
    · cases hc
  · cases hc

/-- For a sector, the copy of the browser is that of the tool with whole reads. -/
theorem webBufCopy_std {p : Path} {d : Bytes} (hw : t.walk p = some .file) (hg : getFile b fs (root ++ p) = some d)
    (off : Nat) :
    webBufCopy b fs root t p (List.replicate 2048 0) off 0 2048 =
      stdBufCopy (hostRead (fun _ _ n => n) fs root) p (List.replicate 2048 0) off 0 2048 := by
  unfold webBufCopy stdBufCopy hostRead
  rw [hw]
  simp only [hg, (getFile_some hg).1, List.length_replicate, Nat.sub_zero, Nat.min_self]
  have e : (d.drop off).take (min d.length 2048) = (d.drop off).take 2048 := by
    rw [← List.take_take, List.take_of_length_le (l := d.drop off |>.take 2048)]
    simp only [List.length_take, List.length_drop]
    omega
  have hl : ((d.drop off).take 2048).length ≤ 2048 := by simp only [List.length_take]; omega
  rw [e, if_neg (by omega), if_neg (by omega), if_neg (by omega)]
  simp only [slice, Res.ok_bind, List.take_take, Nat.min_self, Nat.zero_add, List.take_zero, List.nil_append]
  rw [if_neg (by omega)]
  congr 2
  rw [List.take_left, List.drop_eq_nil_of_le (as := List.replicate 2048 (0 : UInt8)) (by rw [List.length_replicate]; omega), List.append_nil]

variable {n : Nat} {s : PackState SecMap}

/-- Every sector is read as the tool reads it. -/
theorem web_sector (ht : populate b fs fuel root = .ok t) (hroot : fs root = some .dir)
    (hl : createImage (linearEnv (webFs b fs root t).readDir (webFs b fs root t).pathToString) n ⟨[], []⟩ = (.ok (), s))
    (k : Nat) : readSector (webBufCopy b fs root t) s.dev k 2048 =
      readSector (stdBufCopy (hostRead (fun _ _ n => n) fs root)) s.dev k 2048 := by
  obtain ⟨m, log⟩ := s
  simp only
  unfold readSector
  cases hm : m.get k with
  | none => rfl
  | some x =>
    cases x with
    | raw x => rfl
    | file p i =>
      obtain ⟨q, e, he, hdir, rfl, _⟩ := linear_files hl hm
      obtain ⟨d, h1, h2, _⟩ := web_entry_file ht hroot he hdir
      simp only [webBufCopy_std h1 h2]

theorem web_stable (ht : populate b fs fuel root = .ok t) (hroot : fs root = some .dir)
    (hl : createImage (linearEnv (webFs b fs root t).readDir (webFs b fs root t).pathToString) n ⟨[], []⟩ = (.ok (), s)) :
    WebStable c dest name (fun fs => webBufCopy b fs root t) s.dev fs := by
  intro fs2 hch k
  obtain ⟨m, log⟩ := s
  simp only
  unfold readSector
  cases hm : m.get k with
  | none => rfl
  | some x =>
    cases x with
    | raw x => rfl
    | file p i =>
      obtain ⟨q, e, he, hdir, rfl, _⟩ := linear_files hl hm
      obtain ⟨d, h1, h2, _⟩ := web_entry_file ht hroot he hdir
      have h3 : getFile b fs2 (root ++ (q ++ [e.name])) = some d := by
        obtain ⟨g1, g2⟩ := getFile_some h2
        unfold getFile
        rw [g2, hch.keeps g1]
        rfl
      simp only [webBufCopy, h2, h3]

theorem web_linear_packs (ht : populate b fs fuel root = .ok t) (hroot : fs root = some .dir)
    (hl : createImage (linearEnv (webFs b fs root t).readDir (webFs b fs root t).pathToString) n ⟨[], []⟩ = (.ok (), s)) :
    ∃ s', createImage (fileEnv (webFs b fs root t) (fun _ => none)) n ⟨⟨[], []⟩, []⟩ = (.ok (), s') := by
  have hres : (createP (webFs b fs root t).readDir (webFs b fs root t).pathToString n).res = .ok () := (create_each hl).1
  refine (file_create (webFs b fs root t) n []).1 ⟨hres, ?_⟩
  intro o ho
  cases o with
  | report p => trivial
  | write off d => trivial
  | copy p out k =>
    obtain ⟨p', e, k1, k2, k3, k4⟩ := createP_fromSource hres _ ho
    subst k3 k4
    obtain ⟨d, h1, h2, h3⟩ := web_entry_file ht hroot k1 k2
    refine ⟨e.len, ?_⟩
    show (webCopy b fs root t (p' ++ [e.name]) 0 e.len).2 = _
    unfold webCopy
    rw [h1]
    simp only [h2]
    rw [if_pos (by simp [h3])]

/-- The sectors of a folder are those of the image that packing it makes. -/
theorem web_view (ht : populate b fs fuel root = .ok t) (hroot : fs root = some .dir) {s' : PackState ImgFile}
    (hp : createImage (fileEnv (webFs b fs root t) (fun _ => none)) n ⟨⟨[], []⟩, []⟩ = (.ok (), s')) :
    ∃ m, createImage (linearEnv (webFs b fs root t).readDir (webFs b fs root t).pathToString) n ⟨[], []⟩ =
        (.ok (), ⟨m, s'.log⟩) ∧ linLen m = s'.dev.img.length ∧
      (∀ k, 2048 * k < s'.dev.img.length →
        readSector (webBufCopy b fs root t) m k 2048 = .ok (slice s'.dev.img (2048 * k) 2048)) ∧
      viewBytes (webBufCopy b fs root t) m (linLen m / 2048) = .ok s'.dev.img := by
  have hb := web_bounded (b := b) (fs := fs) (root := root) (t := t)
  have hf := web_faithful ht
  have hr : ReadsWhole (webFs b fs root t).readDir (stdContent fs root) (hostRead (fun _ _ n => n) fs root) := by
    intro p e he hd off k
    exact hostRead_whole (r := nameOrder b) (fun _ _ _ => Nat.le_refl _) p e (web_entry_std ht he) hd off k
  obtain ⟨m, k1, k2, k3⟩ := Props.C39_compress_view hb hf hr hp
  obtain ⟨m', k4, k5⟩ := Props.C39_compress_view_whole hb hf hr hp
  rw [k1] at k4
  cases k4
  have hsec := fun k => web_sector ht hroot k1 k
  simp only at hsec
  refine ⟨m, k1, k2, fun k hk => by rw [hsec]; exact k3 k hk, ?_⟩
  rw [← k5]
  have : ∀ j, viewBytes (webBufCopy b fs root t) m j = viewBytes (stdBufCopy (hostRead (fun _ _ n => n) fs root)) m j := by
    intro j
    induction j with
    | zero => rfl
    | succ j ih => simp only [viewBytes, ih, hsec]
  exact this _

end

/-! ## Images -/

theorem web_image_stable {fs : HostFs} {src : HostPath} {img : Bytes} {base : Nat} {ifs : ImgFs}
    (hsrc : fs src = some (.file img)) :
    WebStable c dest name (fun fs => imgBufCopy (defaultCopier (offsetDev (webDev b fs src) base)) ifs) m fs := by
  intro fs2 hch k
  have : webDev b fs2 src = webDev b fs src := by
    unfold webDev getFile
    rw [hch.keeps hsrc, hsrc]
  simp only [this]

end Xdvdfs
