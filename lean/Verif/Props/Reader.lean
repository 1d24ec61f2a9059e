import Verif.Proof.Read
import Verif.Props.Codec

/-!
# C06–C15: reading arbitrary (possibly hostile) images
-/

namespace Xdvdfs

open Res

/-! ## C06: opening a volume -/

/-- **C06**.  Opening a volume succeeds exactly when the 2048 bytes at byte 65536 can be read and
carry the magic at both ends, and then yields that descriptor. -/
theorem C06_read_volume_iff (dev : Dev) (v : VolDesc) :
    readVolume dev = .ok v ↔
      ∃ b, dev.read 65536 2048 = .ok b ∧ Spec.IsVolume b ∧ v = VolDesc.deser b := by
  have hm : volumeMagic = Spec.magic := by decide
  have hv (b : Bytes) (h : b.length = 2048) :
      (VolDesc.deser b).isValid = true ↔ Spec.IsVolume b := by
    have e2 : slice b 0x7ec 0x14 = b.drop 2028 := by
      simp only [slice]; rw [List.take_of_length_le]; simp [h]
    simp only [VolDesc.isValid, VolDesc.deser, e2, Bool.and_eq_true, beq_iff_eq, Spec.IsVolume, ← hm]
    rfl
  unfold readVolume
  simp only [sectorSize]
  cases hr : dev.read (2048 * 32) 2048 with
  | ok b =>
    have hl := dev.read_len _ _ _ hr
    constructor
    · intro h
      simp only at h
      split at h
      · rename_i hval
        cases h
        exact ⟨b, rfl, (hv b hl).mp hval, rfl⟩
      · cases h
    · rintro ⟨b', hb', hval, rfl⟩
      cases hb'
      simp only
      rw [if_pos ((hv b hl).mpr hval)]
  | err e => simp only [reduceCtorEq, false_and, exists_false]
  | panic => simp only [reduceCtorEq, false_and, exists_false]
  | hang => simp only [reduceCtorEq, false_and, exists_false]

/-- **C06** (failures).  On a device whose reads return, opening a volume either succeeds or
returns `InvalidVolume`. -/
theorem C06_read_volume_total (dev : Dev) (hd : dev.SaneBelow (2 ^ 44)) :
    (∃ v, readVolume dev = .ok v) ∨ readVolume dev = .err .invalidVolume := by
  unfold readVolume
  have := hd (sectorSize * 32) 2048 (by simp [sectorSize])
  cases hr : dev.read (sectorSize * 32) 2048 with
  | ok b => simp only; split <;> simp
  | err e => simp
  | panic => exact absurd hr this.1
  | hang => exact absurd hr this.2

/-- An image whose sector 32 is a fresh descriptor opens with that descriptor. -/
example (before : Bytes) (hb : before.length = 65536) (r : Region) :
    readVolume (fileDev (before ++ (VolDesc.new r).ser)) = .ok (VolDesc.new r) := by
  rw [C06_read_volume_iff]
  have hw := VolDesc.new_wf r
  have hl := VolDesc.ser_length _ hw
  refine ⟨(VolDesc.new r).ser, ?_, (C02_volume_new_roundtrip r).2.1, (VolDesc.deser_ser _ hw).symm⟩
  rw [fileDev_read]
  unfold fileRead
  rw [if_neg (by decide), if_pos (by rw [List.length_append, hl, hb]; exact Nat.le_refl _),
    slice_append_right _ _ _ _ (by omega), hb]
  simp only [slice, Nat.sub_self, List.drop_zero]
  rw [List.take_of_length_le (by omega)]

/-! ## C07: partition offsets -/

/-- **C07** (detection).  On a device whose reads return, wrapping it selects the first partition
offset at which a volume can be read. -/
theorem C07_offset_first_valid (dev : Dev) (hd : dev.SaneBelow (2 ^ 45)) (o : Nat) :
    offsetNew dev = .ok o ↔
      ∃ before after, Spec.partitionOffsets = before ++ o :: after ∧
        (∀ o' ∈ before, ¬ Spec.VolumeAt dev o') ∧ Spec.VolumeAt dev o := by
  have sane (o : Nat) (ho : o < 2 ^ 44) : (offsetDev dev o).SaneBelow (2 ^ 44) := by
    intro off n hoff
    show (offsetRead dev.read o off n).Returns
    unfold offsetRead
    rw [if_pos (by omega)]
    exact hd _ _ (by omega)
  have vol (o : Nat) (ho : o < 2 ^ 44) :
      (∃ v, readVolume (offsetDev dev o) = .ok v) ↔ Spec.VolumeAt dev o := by
    have e : (offsetDev dev o).read 65536 2048 = dev.read (o + 65536) 2048 := by
      show offsetRead dev.read o 65536 2048 = _
      unfold offsetRead
      rw [if_pos (by omega), Nat.add_comm]
    constructor
    · rintro ⟨v, hv⟩
      obtain ⟨b, hb, hval, _⟩ := (C06_read_volume_iff _ _).mp hv
      exact ⟨b, e ▸ hb, hval⟩
    · rintro ⟨b, hb, hval⟩
      exact ⟨_, (C06_read_volume_iff _ _).mpr ⟨b, e ▸ hb, hval, rfl⟩⟩
  have loop (os : List Nat) (hos : ∀ x ∈ os, x < 2 ^ 44) :
      offsetNewLoop dev os = .ok o ↔ ∃ before after, os = before ++ o :: after ∧
        (∀ o' ∈ before, ¬ Spec.VolumeAt dev o') ∧ Spec.VolumeAt dev o := by
    induction os with
    | nil => simp [offsetNewLoop]
    | cons x xs ih =>
      have hx := hos x (by simp)
      have ih := ih (fun y hy => hos y (by simp [hy]))
      unfold offsetNewLoop
      rcases C06_read_volume_total _ (sane x hx) with ⟨v, hv⟩ | hv
      · have hvx := (vol x hx).mp ⟨v, hv⟩
        simp only [hv]
        constructor
        · intro h; cases h
          exact ⟨[], xs, rfl, by simp, hvx⟩
        · rintro ⟨before, after, he, hb, _⟩
          cases before with
          | nil => simp at he; rw [he.1]
          | cons y ys => simp at he; exact absurd (he.1 ▸ hvx) (hb y (by simp))
      · have hvx : ¬ Spec.VolumeAt dev x := by
          intro h
          obtain ⟨v, hv'⟩ := (vol x hx).mpr h
          rw [hv] at hv'; cases hv'
        simp only [hv, ih]
        constructor
        · rintro ⟨before, after, he, hb, ho⟩
          refine ⟨x :: before, after, by simp [he], ?_, ho⟩
          intro y hy
          rcases List.mem_cons.mp hy with rfl | hy
          · exact hvx
          · exact hb y hy
        · rintro ⟨before, after, he, hb, ho⟩
          cases before with
          | nil => simp at he; exact absurd (he.1 ▸ ho) hvx
          | cons y ys =>
            simp at he
            exact ⟨ys, after, he.2, fun z hz => hb z (by simp [hz]), ho⟩
  exact loop xdvdOffsets (by decide)

/-- **C07** (no volume).  If there is no volume at any offset, wrapping fails with
`InvalidVolume`; it never panics. -/
theorem C07_offset_none (dev : Dev) (hd : dev.SaneBelow (2 ^ 45)) :
    ((∃ o, offsetNew dev = .ok o) ∨ offsetNew dev = .err .invalidVolume) ∧
    ((∀ o ∈ Spec.partitionOffsets, ¬ Spec.VolumeAt dev o) →
      offsetNew dev = .err .invalidVolume) := by
  have sane (o : Nat) (ho : o < 2 ^ 44) : (offsetDev dev o).SaneBelow (2 ^ 44) := by
    intro off n hoff
    show (offsetRead dev.read o off n).Returns
    unfold offsetRead
    rw [if_pos (by omega)]
    exact hd _ _ (by omega)
  have tot (os : List Nat) (hos : ∀ x ∈ os, x < 2 ^ 44) :
      (∃ o, offsetNewLoop dev os = .ok o) ∨ offsetNewLoop dev os = .err .invalidVolume := by
    induction os with
    | nil => right; rfl
    | cons x xs ih =>
      unfold offsetNewLoop
      rcases C06_read_volume_total _ (sane x (hos x (by simp))) with ⟨v, hv⟩ | hv
      · left; exact ⟨x, by simp [hv]⟩
      · simp only [hv]; exact ih (fun y hy => hos y (by simp [hy]))
  have h := tot xdvdOffsets (by decide)
  refine ⟨h, fun hn => ?_⟩
  rcases h with ⟨o, ho⟩ | h
  · obtain ⟨before, after, he, _, hv⟩ := (C07_offset_first_valid dev hd o).mp ho
    exact absurd hv (hn o (by rw [he]; simp))
  · exact h

/-- **C07** (translation).  A read through the wrapper is the read of the underlying device shifted
by the offset (as long as the position fits in 64 bits). -/
theorem C07_offset_translation (dev : Dev) (base off n : Nat) (h : off + base < 2 ^ 64) :
    (offsetDev dev base).read off n = dev.read (off + base) n := by
  show offsetRead dev.read base off n = _
  unfold offsetRead; rw [if_pos h]

/-! ## C08, C09: no panics -/

/-- **C08**.  On any device whose reads return (whatever they return or however they fail), opening
a volume, listing a directory, listing everything, searching a directory and reading file data
never panic. -/
theorem C08_reader_never_panics (dev : Dev) (hd : dev.SaneBelow (2 ^ 44)) (tab : Region)
    (name : Str) (d : DiskData) (fuel : Nat) :
    readVolume dev ≠ .panic ∧ walkDirentTree dev tab fuel ≠ .panic ∧
    fileTree dev tab fuel ≠ .panic ∧ findDirent dev tab name fuel ≠ .panic ∧
    readDataAll dev d ≠ .panic := by
  refine ⟨?_, walkDirentTree_no_panic hd _ _, fileTreeLoop_no_panic hd _ _ _ _,
    findDirent_no_panic hd _ _ _, ?_⟩
  · rcases C06_read_volume_total dev hd with ⟨v, h⟩ | h <;> simp [h]
  · unfold readDataAll
    split
    · simp
    · intro h
      rw [bind_eq_panic] at h
      rcases h with h | ⟨off, ho, h⟩
      · exact (Region.offset_returns _ _).1 h
      · have := Region.offset_lt ho
        exact (hd off _ (by omega)).1 h

/-- The hypothesis of C08 holds for every file, whatever its bytes. -/
example (content : Bytes) : (fileDev content).SaneBelow (2 ^ 44) := fileDev_sane content _

theorem splitSlash_ne_nil (s : Str) : splitSlash s ≠ [] := by
  cases s with
  | nil => simp [splitSlash]
  | cons c cs =>
    simp only [splitSlash]
    split
    · simp
    · split <;> simp

theorem splitSlash_single {s : Str} (h : splitSlash s = [[]]) : s = [] := by
  cases s with
  | nil => rfl
  | cons c cs =>
    simp only [splitSlash] at h
    split at h
    · simp at h; exact absurd h (splitSlash_ne_nil cs)
    · split at h <;> simp at h

theorem splitTerminator_nil_iff (s : Str) : splitTerminator s = [] ↔ s = [] := by
  constructor
  · intro h
    unfold splitTerminator at h
    simp only at h
    split at h
    · rename_i hl
      apply splitSlash_single
      cases hs : splitSlash s with
      | nil => exact absurd hs (splitSlash_ne_nil s)
      | cons a as =>
        rw [hs] at h hl
        cases as with
        | nil => simp at hl; rw [hl]
        | cons b bs => simp at h
    · exact absurd h (splitSlash_ne_nil s)
  · rintro rfl; decide

theorem trimSlashes_nil_iff (s : Str) : trimSlashes s = [] ↔ Spec.OnlySlashes s := by
  induction s with
  | nil => simp [trimSlashes, Spec.OnlySlashes]
  | cons c cs ih =>
    by_cases hc : c = '/'
    · subst hc
      simp only [trimSlashes, ih, Spec.OnlySlashes]; simp
    · constructor
      · intro h
        unfold trimSlashes at h
        split at h
        · simp_all
        · cases h
      · intro h; exact absurd (h c (by simp)) hc

/-- **C09** (partial: exact set of panicking paths).  Missing: C09 itself is false, see
`C09_walk_path_never_panics_false`.  On any device whose reads return, looking up a path panics
exactly when the path consists of two or more slashes and nothing else. -/
theorem C09_walk_path_never_panics_partial (dev : Dev) (hd : dev.SaneBelow (2 ^ 44)) (tab : Region)
    (path : Str) (fuel : Nat) :
    walkPath dev tab path fuel = .panic ↔ Spec.OnlySlashes path ∧ 2 ≤ path.length := by
  unfold walkPath
  constructor
  · intro h
    split at h
    · cases h
    · rename_i hp
      have he : splitTerminator (trimSlashes path) = [] := by
        cases hs : splitTerminator (trimSlashes path) with
        | nil => rfl
        | cons a as =>
          rw [hs] at h
          exact absurd h (walkSegments_no_panic hd fuel tab _ (by simp))
      have ho := (trimSlashes_nil_iff path).mp ((splitTerminator_nil_iff _).mp he)
      refine ⟨ho, ?_⟩
      match path, hp, ho with
      | [], hp, _ => simp at hp
      | [c], hp, ho => exact absurd (.inr (by rw [ho c (by simp)])) hp
      | _ :: _ :: _, _, _ => simp
  · rintro ⟨ho, hl⟩
    rw [if_neg, (splitTerminator_nil_iff _).mpr ((trimSlashes_nil_iff path).mpr ho)]
    · rfl
    · rintro (rfl | rfl) <;> simp at hl

/-- **C09 is false**: looking up `"//"` panics on every image. -/
theorem C09_walk_path_never_panics_false (dev : Dev) (tab : Region) (fuel : Nat) :
    walkPath dev tab "//".toList fuel = .panic := by rfl

/-! ## C10: termination of tree walks -/

/-- An entry `b` whose left link designates table offset 16. -/
def cyclicEntry : Bytes := [4, 0, 0, 0, 1, 0, 0, 0, 1, 0, 0, 0, 0x20, 1, 98, 0xff]

/-- A 32-byte table: the root's left child is at offset 16 and is its own left child. -/
def cyclicImage : Bytes := cyclicEntry ++ cyclicEntry

/-- **C10 is false** (listing): on this image, listing the table never finishes. -/
theorem C10_walk_terminates_false : ∀ fuel,
    walkDirentTree (fileDev cyclicImage) ⟨0, 32⟩ fuel = .hang := by
  have step (fuel : Nat) (acc) (top : Nat) (ht : top = 0 ∨ top = 16) :
      ∃ d, walkLoop (fileDev cyclicImage) ⟨0, 32⟩ (fuel + 1) [top] acc =
        walkLoop (fileDev cyclicImage) ⟨0, 32⟩ fuel [16] (d :: acc) := by
    refine ⟨{ node := { left := 4, right := 0, dirent := ⟨⟨1, 1⟩, 0x20, 1⟩ }, name := [98],
              offset := top }, ?_⟩
    have h1 : Region.offset ⟨0, 32⟩ top = .ok top := by rcases ht with rfl | rfl <;> decide
    have h2 : readDirent (fileDev cyclicImage) top =
        .ok (some { node := { left := 4, right := 0, dirent := ⟨⟨1, 1⟩, 0x20, 1⟩ }, name := [98],
                    offset := top }) := by rcases ht with rfl | rfl <;> decide +kernel
    conv => lhs; unfold walkLoop
    simp only [h1, h2, ok_bind]
    rfl
  have loop (fuel : Nat) : ∀ (acc : List DirEnt) (top : Nat), top = 0 ∨ top = 16 →
      walkLoop (fileDev cyclicImage) ⟨0, 32⟩ fuel [top] acc = .hang := by
    induction fuel with
    | zero => intros; rfl
    | succ fuel ih =>
      intro acc top ht
      obtain ⟨d, hd⟩ := step fuel acc top ht
      rw [hd]; exact ih _ _ (.inr rfl)
  intro fuel
  unfold walkDirentTree
  rw [if_neg (by decide)]
  exact loop fuel [] 0 (.inl rfl)

/-- **C10 is false** (lookup): on the same image, searching `a` never finishes. -/
theorem C10_find_terminates_false : ∀ fuel,
    findDirent (fileDev cyclicImage) ⟨0, 32⟩ "a".toList fuel = .hang := by
  have loop (fuel : Nat) : ∀ top : Nat, top = 0 ∨ top = 16 →
      findLoop (fileDev cyclicImage) ⟨0, 32⟩ "a".toList fuel top = .hang := by
    induction fuel with
    | zero => intros; rfl
    | succ fuel ih =>
      intro top ht
      have h2 : readDirent (fileDev cyclicImage) top =
          .ok (some { node := { left := 4, right := 0, dirent := ⟨⟨1, 1⟩, 0x20, 1⟩ }, name := [98],
                      offset := top }) := by rcases ht with rfl | rfl <;> decide +kernel
      have h3 : cmpIgnoreCase "a".toList (DirEnt.nameStr { node := { left := 4, right := 0, dirent := ⟨⟨1, 1⟩, 0x20, 1⟩ }, name := [98], offset := top }) = .lt := by
        show cmpIgnoreCase "a".toList (decodeName [98]) = .lt
        decide
      unfold findLoop
      simp only [h2, ok_bind, ofOption_some, h3, pure_eq]
      have h4 : Region.offset ⟨0, 32⟩ (4 * (4 : UInt16).toNat) = .ok 16 := by decide
      rw [if_neg (by decide), h4]
      exact ih 16 (.inr rfl)
  intro fuel
  unfold findDirent
  rw [if_neg (by decide)]
  exact loop fuel 0 (.inl rfl)

/-- **C10** (partial: tables without link cycles).  Missing: images with cyclic links, for which
the property is false.  On any device whose reads return, listing a table whose links are acyclic
finishes, and gives the same outcome from some amount of fuel on. -/
theorem C10_walk_terminates_partial (dev : Dev) (hd : dev.SaneBelow (2 ^ 44)) (tab : Region)
    (ha : Spec.Acyclic dev tab) :
    ∃ r n, r ≠ .hang ∧ ∀ fuel, n ≤ fuel → walkDirentTree dev tab fuel = r := by
  obtain ⟨n, hn⟩ := walkDirentTree_terminates hd ha
  exact ⟨_, n, hn, fun fuel hf => walkDirentTree_mono hn fuel hf⟩

/-- **C10** (partial: tables without link cycles, not larger than 262140 bytes).  Missing: cyclic
tables.  Searching any name finishes. -/
theorem C10_find_terminates_partial (dev : Dev) (hd : dev.SaneBelow (2 ^ 44)) (tab : Region)
    (hsz : tab.size.toNat ≤ 262140) (ha : Spec.Acyclic dev tab) (name : Str) :
    ∃ r n, r ≠ .hang ∧ ∀ fuel, n ≤ fuel → findDirent dev tab name fuel = r := by
  have : ∃ n, findDirent dev tab name n ≠ .hang := by
    by_cases he : tab.isEmpty
    · exact ⟨0, by simp [findDirent, he]⟩
    · obtain ⟨rank, hr⟩ := ha
      have h0 : 0 < tab.size.toNat := by
        rcases Nat.eq_zero_or_pos tab.size.toNat with h | h
        · exact absurd (by simp [Region.isEmpty]; exact UInt32.toNat_inj.mp h) he
        · exact h
      obtain ⟨n, hn⟩ := findLoop_terminates hd hr hsz name (rank 0) 0 (Nat.le_refl _) h0 .root
      refine ⟨n, ?_⟩
      unfold findDirent
      rw [if_neg he, Region.offset_of_lt h0]
      exact hn
  obtain ⟨n, hn⟩ := this
  exact ⟨_, n, hn, fun fuel hf => findDirent_mono hn fuel hf⟩

/-- A two-entry acyclic table: `b` at offset 0 with left child `a` at offset 16. -/
def twoEntryImage : Bytes :=
  [4, 0, 0, 0, 1, 0, 0, 0, 1, 0, 0, 0, 0x20, 1, 98, 0xff,
   0, 0, 0, 0, 2, 0, 0, 0, 1, 0, 0, 0, 0x20, 1, 97, 0xff]

/-- The hypotheses of the partial theorems of C10 are met by a two-entry table. -/
example : Spec.Acyclic (fileDev twoEntryImage) ⟨0, 32⟩ := by
  refine ⟨fun o => 32 - o, ?_⟩
  have ch (o c : Nat) (ho : o = 0 ∨ o = 16) (h : Spec.ChildOf (fileDev twoEntryImage) ⟨0, 32⟩ o c) :
      o = 0 ∧ c = 16 := by
    obtain ⟨d, ⟨_, hd⟩, hl⟩ := h
    rcases ho with rfl | rfl
    · have e : readDirent (fileDev twoEntryImage) (2048 * (0 : UInt32).toNat + 0) =
          .ok (some { node := { left := 4, right := 0, dirent := ⟨⟨1, 1⟩, 0x20, 1⟩ }, name := [98],
                      offset := 0 }) := by decide +kernel
      rw [e] at hd
      cases hd
      rcases hl with ⟨_, rfl⟩ | ⟨h, _⟩
      · exact ⟨rfl, rfl⟩
      · exact absurd rfl h.1
    · have e : readDirent (fileDev twoEntryImage) (2048 * (0 : UInt32).toNat + 16) =
          .ok (some { node := { left := 0, right := 0, dirent := ⟨⟨2, 1⟩, 0x20, 1⟩ }, name := [97],
                      offset := 16 }) := by decide +kernel
      rw [e] at hd
      cases hd
      rcases hl with ⟨h, _⟩ | ⟨h, _⟩ <;> exact absurd rfl h.1
  intro o c hr h
  have ho : o = 0 ∨ o = 16 := by
    induction hr generalizing c with
    | root => exact .inl rfl
    | child _ hc ih => exact .inr (ch _ _ (ih _ hc) hc).2
  obtain ⟨rfl, rfl⟩ := ch o c ho h
  decide

example : walkDirentTree (fileDev twoEntryImage) ⟨0, 32⟩ 3 ≠ .hang := by decide +kernel

/-! ## C11, C12: sequential scan -/

/-- **C11**.  On any device whose reads return, whatever the bytes, scanning a table finishes (with
an explicit bound on the number of iterations) and yields at most 128 entries per table sector. -/
theorem C11_scan_terminates (dev : Dev) (hd : dev.SaneBelow (2 ^ 44)) (tab : Region) (fuel : Nat)
    (hf : 128 * ((tab.size.toNat + 2047) / 2048) + 1 ≤ fuel) :
    scanAll dev tab fuel ≠ .hang ∧
    ∀ l, scanAll dev tab fuel = .ok l → l.length ≤ 128 * ((tab.size.toNat + 2047) / 2048) := by
  have h1 := tab.sector.toNat_lt
  have h2 := tab.size.toNat_lt
  unfold scanAll scanInit
  by_cases he : tab.isEmpty
  · simp only [if_pos he, ok_bind]
    have hinv : Scan.Inv { sector := 0, buf := List.replicate 2048 0xff, offset := 0, endSector := 0 } :=
      ⟨by simp only [List.length_replicate], by simp, by simp⟩
    obtain ⟨a, b⟩ := scanDrain_spec hd fuel _ [] (by simp) hinv (by simp [Scan.left]; omega) (by simp)
    refine ⟨a, fun l hl => ?_⟩
    have := b l hl
    simp [Scan.left] at this
    simp [this]
  · simp only [if_neg he]
    cases ho : tab.offset 0 with
    | err e => simp
    | panic => exact absurd ho (Region.offset_returns _ _).1
    | hang => exact absurd ho (Region.offset_returns _ _).2
    | ok off =>
      have hlt := Region.offset_lt ho
      simp only [ok_bind]
      cases hr : dev.read off 2048 with
      | err e => simp
      | panic => exact absurd hr (hd off 2048 (by omega)).1
      | hang => exact absurd hr (hd off 2048 (by omega)).2
      | ok buf =>
        simp only [ok_bind, pure_eq]
        obtain ⟨a, b⟩ := scanDrain_spec hd fuel
          { sector := tab.sector.toNat, buf := buf, offset := 0,
            endSector := tab.sector.toNat + (tab.size.toNat + 2047) / 2048 } []
          (by simp only; omega) ⟨dev.read_len _ _ _ hr, by simp, by simp⟩
          (by simp only [Scan.left]; omega) (by simp only; omega)
        refine ⟨a, fun l hl => ?_⟩
        have := b l hl
        simp only [Scan.left, List.length_nil] at this
        omega

example : scanAll (fileDev (twoEntryImage ++ List.replicate 2016 0xff)) ⟨0, 32⟩ 129 =
    .ok [{ node := { left := 4, right := 0, dirent := ⟨⟨1, 1⟩, 0x20, 1⟩ }, name := [98], offset := 0 },
         { node := { left := 0, right := 0, dirent := ⟨⟨2, 1⟩, 0x20, 1⟩ }, name := [97], offset := 16 }] := by
  decide +kernel

/-- A 272-byte entry with a 255-byte name. -/
def longEntry : Bytes :=
  [0, 0, 0, 0, 1, 0, 0, 0, 1, 0, 0, 0, 0x20, 255] ++ List.replicate 258 97

/-- One sector filled with such entries; the eighth one crosses the end of the sector. -/
def crossingSector : Bytes :=
  (longEntry ++ longEntry ++ longEntry ++ longEntry ++ longEntry ++ longEntry ++ longEntry ++
    longEntry).take 2048

/-- **C12 is false**: scanning this sector panics (assertion at `read.rs:66`). -/
theorem C12_scan_never_panics_false :
    scanAll (fileDev crossingSector) ⟨0, 2048⟩ 129 = .panic := by decide +kernel

theorem Scan.step_no_panic {dev : Dev} (hd : dev.SaneBelow (2 ^ 44)) (s : Scan)
    (he : s.endSector ≤ 2 ^ 33) (hi : s.Inv)
    (hn : Spec.NamesInside s.buf) : s.step dev ≠ .panic := by
  obtain ⟨hb, ho, _⟩ := hi
  unfold Scan.step
  simp only [ho, decide_true, assert_true, ok_bind]
  cases hn' : deserDirentNode (slice s.buf s.offset 14) with
  | none =>
    simp only
    split
    · intro h
      rw [bind_eq_panic] at h
      rcases h with h | ⟨s', _, h⟩
      · exact (Scan.nextSector_spec hd s he hb).1.1 h
      · cases h
    · simp
  | some node =>
    simp only
    have := hn s.offset node ho hn'
    simp only [this, decide_true, assert_true, ok_bind]
    split
    · intro h
      rw [bind_eq_panic] at h
      rcases h with h | ⟨s', _, h⟩
      · exact (Scan.nextSector_spec hd _ (by exact he) (by exact hb)).1.1 h
      · cases h
    · simp

theorem Scan.step_buf {dev : Dev} (s : Scan) (P : Bytes → Prop) (hP : P s.buf)
    (hread : ∀ x b, dev.read (x * 2048) 2048 = .ok b → x < s.endSector → s.sector < x → P b) :
    (∀ s', s.step dev = .ok (.inl s') → P s'.buf) ∧
    (∀ d s', s.step dev = .ok (.inr (d, s')) → P s'.buf) := by
  have hns (s0 : Scan) (h0 : P s0.buf) (hsec : s0.sector = s.sector) (hend : s0.endSector = s.endSector)
      (s' : Scan) (h : s0.nextSector dev = .ok s') : P s'.buf := by
    unfold Scan.nextSector at h
    simp only at h
    split at h
    · cases h; exact h0
    · rw [bind_eq_ok] at h
      obtain ⟨b, hb, h⟩ := h
      cases h
      exact hread _ b hb (by omega) (by omega)
  unfold Scan.step
  constructor
  · intro s' h
    rw [bind_eq_ok] at h
    obtain ⟨_, _, h⟩ := h
    cases hn' : deserDirentNode (slice s.buf s.offset 14) with
    | none =>
      simp only [hn'] at h
      split at h
      · rw [bind_eq_ok] at h
        obtain ⟨s1, h1, h⟩ := h
        cases h
        exact hns s hP rfl rfl _ h1
      · cases h
    | some node =>
      simp only [hn'] at h
      rw [bind_eq_ok] at h
      obtain ⟨_, _, h⟩ := h
      split at h
      · rw [bind_eq_ok] at h
        obtain ⟨s1, h1, h⟩ := h
        cases h
      · cases h
  · intro d s' h
    rw [bind_eq_ok] at h
    obtain ⟨_, _, h⟩ := h
    cases hn' : deserDirentNode (slice s.buf s.offset 14) with
    | none =>
      simp only [hn'] at h
      split at h
      · rw [bind_eq_ok] at h
        obtain ⟨s1, h1, h⟩ := h
        cases h
      · cases h; exact hP
    | some node =>
      simp only [hn'] at h
      rw [bind_eq_ok] at h
      obtain ⟨_, _, h⟩ := h
      split at h
      · rw [bind_eq_ok] at h
        obtain ⟨s1, h1, h⟩ := h
        cases h
        exact hns _ hP rfl rfl _ h1
      · cases h; exact hP

/-- **C12** (partial: no name crosses a sector end).  Missing: images in which an entry's name runs
past the end of its sector, for which the property is false.  If every sector the table covers
contains no such entry, scanning never panics. -/
theorem C12_scan_never_panics_partial (dev : Dev) (hd : dev.SaneBelow (2 ^ 44)) (tab : Region)
    (hn : ∀ x b, tab.sector.toNat ≤ x → x < tab.sector.toNat + (tab.size.toNat + 2047) / 2048 →
      dev.read (x * 2048) 2048 = .ok b → Spec.NamesInside b) (fuel : Nat) :
    scanAll dev tab fuel ≠ .panic := by
  have h1 := tab.sector.toNat_lt
  have h2 := tab.size.toNat_lt
  -- generic facts for states inside the table
  have nextLoop (E : Nat) (hE : E ≤ 2 ^ 33)
      (hread : ∀ x b, x < E → tab.sector.toNat ≤ x → dev.read (x * 2048) 2048 = .ok b → Spec.NamesInside b)
      (f : Nat) : ∀ s : Scan, s.endSector = E → s.Inv → s.sector < E → tab.sector.toNat ≤ s.sector →
        Spec.NamesInside s.buf → Scan.nextLoop dev f s ≠ .panic ∧
        ∀ d s', Scan.nextLoop dev f s = .ok (some d, s') → Spec.NamesInside s'.buf ∧ s'.Inv ∧
          s'.endSector = E ∧ tab.sector.toNat ≤ s'.sector := by
    induction f with
    | zero => intros; exact ⟨by simp [Scan.nextLoop], by simp [Scan.nextLoop]⟩
    | succ f ih =>
      intro s hsE hi hlt hge hnb
      obtain ⟨_, hspec⟩ := Scan.step_spec hd s (by omega) hi (by omega)
      obtain ⟨hb1, hb2⟩ := Scan.step_buf (dev := dev) s Spec.NamesInside hnb
        (fun x b hr hx hx' => hread x b (by omega) (by omega) hr)
      have hnp := Scan.step_no_panic hd s (by omega) hi hnb
      unfold Scan.nextLoop
      cases hs : s.step dev with
      | panic => exact absurd hs hnp
      | err e => simp
      | hang => simp
      | ok r =>
        have := hspec r hs
        simp only [ok_bind]
        match r with
        | .inl s' =>
          obtain ⟨a, b, c, e, _⟩ := this
          exact ih s' (by omega) a (by omega) (by omega) (hb1 s' hs)
        | .inr (none, s') => simp
        | .inr (some d, s') =>
          obtain ⟨a, b, _, e⟩ := this
          refine ⟨by simp, ?_⟩
          intro d' s'' h
          simp at h
          obtain ⟨rfl, rfl⟩ := h
          exact ⟨hb2 _ _ hs, a, by omega, by omega⟩
  have drain (E : Nat) (hE : E ≤ 2 ^ 33)
      (hread : ∀ x b, x < E → tab.sector.toNat ≤ x → dev.read (x * 2048) 2048 = .ok b → Spec.NamesInside b)
      (f : Nat) : ∀ (s : Scan) (acc : List DirEnt), s.endSector = E → s.Inv →
        tab.sector.toNat ≤ s.sector → Spec.NamesInside s.buf → scanDrain dev f s acc ≠ .panic := by
    induction f with
    | zero => intros; simp [scanDrain]
    | succ f ih =>
      intro s acc hsE hi hge hnb
      unfold scanDrain
      by_cases hlt : s.sector < E
      · obtain ⟨a, b⟩ := nextLoop E hE hread (f + 1) s hsE hi hlt hge hnb
        have hnx : s.next dev (f + 1) = Scan.nextLoop dev (f + 1) s := by
          unfold Scan.next; rw [if_neg (by omega)]
        rw [hnx]
        cases hs : Scan.nextLoop dev (f + 1) s with
        | panic => exact absurd hs a
        | err e => simp
        | hang => simp
        | ok r =>
          simp only [ok_bind]
          match r with
          | (none, _) => simp
          | (some d, s') =>
            obtain ⟨x, y, z, w⟩ := b d s' hs
            exact ih s' _ z y w x
      · have hnx : s.next dev (f + 1) = .ok (none, s) := by
          unfold Scan.next; rw [if_pos (by omega)]
        rw [hnx]; simp
  unfold scanAll scanInit
  by_cases he : tab.isEmpty
  · simp only [if_pos he, ok_bind]
    cases fuel with
    | zero => simp [scanDrain]
    | succ f =>
      unfold scanDrain Scan.next
      rw [if_pos (by simp only; omega)]
      exact fun h => by cases h
  · simp only [if_neg he]
    cases ho : tab.offset 0 with
    | err e => simp
    | panic => exact absurd ho (Region.offset_returns _ _).1
    | hang => exact absurd ho (Region.offset_returns _ _).2
    | ok off =>
      have hlt := Region.offset_lt ho
      obtain ⟨hpos, hoff⟩ := Region.offset_ok ho
      simp only [ok_bind]
      cases hr : dev.read off 2048 with
      | err e => simp
      | panic => exact absurd hr (hd off 2048 (by omega)).1
      | hang => simp
      | ok buf =>
        simp only [ok_bind, pure_eq]
        apply drain (tab.sector.toNat + (tab.size.toNat + 2047) / 2048) (by omega)
          (fun x b hx hx' hrd => hn x b hx' hx hrd) fuel _ [] rfl
          ⟨dev.read_len _ _ _ hr, by simp, by simp⟩ (by simp)
        apply hn tab.sector.toNat buf (Nat.le_refl _) (by omega)
        rw [← hr]; congr 1; omega

/-! ## C13–C15: file data -/

/-- The bytes of a file entry: `size` bytes of the image from the start of its first sector. -/
def Spec.fileBytes (image : Bytes) (d : DiskData) : Bytes :=
  (image.drop (2048 * d.data.sector.toNat)).take d.data.size.toNat

/-- **C13**.  Reading a whole file from an image gives exactly its bytes when they lie inside the
image, and an I/O error otherwise; a zero-size file reads as empty even if its sector lies outside
the image. -/
theorem C13_read_all_exact (image : Bytes) (d : DiskData) :
    (2048 * d.data.sector.toNat + d.data.size.toNat ≤ image.length →
      readDataAll (fileDev image) d = .ok (Spec.fileBytes image d) ∧
      (Spec.fileBytes image d).length = d.data.size.toNat) ∧
    (d.data.size = 0 → readDataAll (fileDev image) d = .ok []) ∧
    (d.data.size ≠ 0 → image.length < 2048 * d.data.sector.toNat + d.data.size.toNat →
      readDataAll (fileDev image) d = .err .io) := by
  have pos (h : d.data.size ≠ 0) : 0 < d.data.size.toNat := by
    rcases Nat.eq_zero_or_pos d.data.size.toNat with h' | h'
    · exact absurd (UInt32.toNat_inj.mp h') h
    · exact h'
  refine ⟨fun h => ⟨?_, by simp [Spec.fileBytes]; omega⟩, fun h => ?_, fun h h' => ?_⟩
  · unfold readDataAll
    split
    · rename_i hz; simp [Spec.fileBytes, hz]
    · rename_i hz
      rw [Region.offset_of_lt (pos hz)]
      simp only [ok_bind, Nat.add_zero]
      show fileRead _ _ _ = _
      unfold fileRead
      have := pos hz
      rw [if_neg (by omega), if_pos h]
      rfl
  · simp [readDataAll, h]
  · unfold readDataAll
    rw [if_neg h, Region.offset_of_lt (pos h)]
    simp only [ok_bind, Nat.add_zero]
    show fileRead _ _ _ = _
    unfold fileRead
    have := pos h
    rw [if_neg (by omega), if_neg (by omega)]

example : readDataAll (fileDev [1, 2, 3, 4, 5]) ⟨⟨0, 3⟩, 0x20, 1⟩ = .ok [1, 2, 3] := by decide

/-- **C14 is false**: in the image `1..8` holding a 4-byte file at its start, reading 4 bytes of
the file at offset 2 returns two bytes that do not belong to it. -/
theorem C14_read_offset_in_file_false :
    ∃ (image : Bytes) (d : DiskData) (size offset : Nat),
      2048 * d.data.sector.toNat + d.data.size.toNat ≤ image.length ∧ offset ≤ d.data.size.toNat ∧
      readDataOffset (fileDev image) d size offset ≠
        .ok (((Spec.fileBytes image d).drop offset).take size) :=
  ⟨[1, 2, 3, 4, 5, 6, 7, 8], ⟨⟨0, 4⟩, 0x20, 1⟩, 4, 2, by decide, by decide, by decide⟩

example : readDataOffset (fileDev [1, 2, 3, 4, 5, 6, 7, 8]) ⟨⟨0, 4⟩, 0x20, 1⟩ 4 2 =
    .ok [3, 4, 5, 6] := by decide

/-- **C14** (partial: requests inside the file are exact).  Missing: requests that reach past the
end of the file, for which the property is false.  A non-empty request lying inside a file whose
bytes lie inside the image returns exactly the requested file bytes. -/
theorem C14_read_offset_in_file_partial (image : Bytes) (d : DiskData) (size offset : Nat)
    (hi : 2048 * d.data.sector.toNat + d.data.size.toNat ≤ image.length)
    (ho : offset < d.data.size.toNat) (hs : offset + size ≤ d.data.size.toNat) :
    readDataOffset (fileDev image) d size offset =
      .ok (((Spec.fileBytes image d).drop offset).take size) := by
  unfold readDataOffset
  have hne : d.data.size ≠ 0 := by rintro h; rw [h] at ho; simp at ho
  simp only [if_neg hne, Nat.min_eq_left (Nat.le_trans (Nat.le_add_left _ _) hs)]
  rw [Region.offset_of_lt ho]
  simp only [ok_bind]
  show fileRead _ _ _ = _
  unfold fileRead
  split
  · rename_i h; simp [h]
  · rw [if_pos (by omega)]
    simp only [slice, Spec.fileBytes, List.drop_take, List.take_take, List.drop_drop]
    congr 2; omega

/-- **C14** (partial: the returned bytes start correctly).  Whenever a request at an offset inside
the file succeeds, the part of the result before the end of the file is correct; what is wrong in
the failing case is that more bytes follow. -/
theorem C14_read_offset_prefix_partial (image : Bytes) (d : DiskData) (size offset : Nat) (b : Bytes)
    (ho : offset < d.data.size.toNat)
    (hr : readDataOffset (fileDev image) d size offset = .ok b) :
    b.length = min size d.data.size.toNat ∧
    b.take (d.data.size.toNat - offset) = ((Spec.fileBytes image d).drop offset).take size := by
  unfold readDataOffset at hr
  have hne : d.data.size ≠ 0 := by rintro h; rw [h] at ho; simp at ho
  simp only [if_neg hne] at hr
  rw [Region.offset_of_lt ho] at hr
  simp only [ok_bind] at hr
  refine ⟨(fileDev image).read_len _ _ _ hr, ?_⟩
  change fileRead _ _ _ = _ at hr
  unfold fileRead at hr
  split at hr
  · rename_i h
    cases hr
    have : size = 0 := by omega
    simp [this]
  · split at hr
    · cases hr
      simp only [slice, Spec.fileBytes, List.drop_take, List.take_take, List.drop_drop]
      congr 1; omega
    · cases hr

/-- **C15 is false**: reading two bytes at offset 2 of a three-byte slice panics. -/
theorem C15_mem_read_never_panics_false : memRead [1, 2, 3] 2 2 = .panic := by decide

/-- **C15** (partial: exact set of panicking requests).  Missing: requests that start inside the
slice and reach past its end, for which the property is false.  All other requests return the
bytes or `OutOfBounds`. -/
theorem C15_mem_read_partial (content : Bytes) (off n : Nat) :
    (memRead content off n = .panic ↔ off < content.length ∧ content.length < off + n) ∧
    (off + n ≤ content.length → off < content.length →
      memRead content off n = .ok ((content.drop off).take n)) ∧
    (content.length ≤ off → memRead content off n = .err .io) := by
  unfold memRead slice
  refine ⟨?_, ?_, ?_⟩
  · constructor
    · intro h
      split at h
      · cases h
      · simp only at h
        split at h
        · cases h
        · omega
    · rintro ⟨h1, h2⟩
      rw [if_neg (by omega)]
      simp only
      rw [if_neg (by omega)]
  · intro h1 h2
    rw [if_neg (by omega)]
    simp only
    rw [if_pos (by omega), Nat.min_eq_right (by omega)]
  · intro h; rw [if_pos (by omega)]

example : memRead [1, 2, 3] 1 2 = .ok [2, 3] := by decide

end Xdvdfs
