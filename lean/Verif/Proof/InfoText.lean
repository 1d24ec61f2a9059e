import Verif.Spec.Printed
import Verif.Proof.RemapPattern
import Verif.Proof.Lookup

/-!
# Lemmas on printed text
-/

namespace Xdvdfs.Props

open Spec

theorem cut_first {α : Type} {c : α} : ∀ {a b : List α} {s t : List α}, c ∉ a → c ∉ b → a ++ c :: s = b ++ c :: t →
    a = b ∧ s = t
  | [], [], _, _, _, _, h => ⟨rfl, (List.cons.inj h).2⟩
  | [], y :: b, _, _, _, hb, h => by
    have := (List.cons.inj h).1
    subst this
    exact absurd (by simp) hb
  | x :: a, [], _, _, ha, _, h => by
    have := (List.cons.inj h).1
    subst this
    exact absurd (by simp) ha
  | x :: a, y :: b, _, _, ha, hb, h => by
    obtain ⟨h1, h2⟩ := List.cons.inj h
    obtain ⟨g1, g2⟩ := cut_first (fun h => ha (by simp [h])) (fun h => hb (by simp [h])) h2
    exact ⟨by rw [h1, g1], g2⟩

theorem cut_last {α : Type} {c : α} {a b s t : List α} (ha : c ∉ a) (hb : c ∉ b) (h : s ++ c :: a = t ++ c :: b) :
    a = b ∧ s = t := by
  have := congrArg List.reverse h
  simp only [List.reverse_append, List.reverse_cons, List.append_assoc, List.singleton_append] at this
  obtain ⟨h1, h2⟩ := cut_first (by simpa using ha) (by simpa using hb) this
  exact ⟨List.reverse_inj.1 h1, List.reverse_inj.1 h2⟩

theorem printedText_inj : ∀ {a b : List Str}, (∀ s ∈ a, OneLine s) → (∀ s ∈ b, OneLine s) →
    printedText a = printedText b → a = b
  | [], [], _, _, _ => rfl
  | [], y :: b, _, _, h => by simp [printedText] at h
  | x :: a, [], _, _, h => by simp [printedText] at h
  | x :: a, y :: b, ha, hb, h => by
    simp only [printedText, List.flatMap_cons, List.append_assoc, List.singleton_append] at h
    obtain ⟨h1, h2⟩ := cut_first (ha x (by simp)) (hb y (by simp)) h
    rw [h1, printedText_inj (fun s hs => ha s (by simp [hs])) (fun s hs => hb s (by simp [hs])) h2]

theorem toDigits_inj {m n : Nat} (h : Nat.toDigits 10 m = Nat.toDigits 10 n) : m = n := by
  rw [← decimal_toDigits m, h, decimal_toDigits]

theorem not_digit {c : Char} (hc : c.isDigit = false) (n : Nat) : c ∉ Nat.toDigits 10 n := by
  intro h
  have := Nat.isDigit_of_mem_toDigits (by omega) (by omega) h
  rw [hc] at this
  cases this

/-! ## The lines of `tree` -/

/-- The body of a line, before the size. -/
theorem sized_inj {a b : Str} {m n : Nat}
    (h : a ++ " (".toList ++ Nat.toDigits 10 m ++ " bytes)".toList = b ++ " (".toList ++ Nat.toDigits 10 n ++ " bytes)".toList) :
    a = b ∧ m = n := by
  have h1 := List.append_cancel_right h
  have e (a : Str) (m : Nat) : a ++ " (".toList ++ Nat.toDigits 10 m = (a ++ [' ']) ++ '(' :: Nat.toDigits 10 m := by simp
  rw [e, e] at h1
  obtain ⟨h2, h3⟩ := cut_last (not_digit (by decide) _) (not_digit (by decide) _) h1
  exact ⟨List.append_cancel_right h3, toDigits_inj h2⟩

/-- A line of `tree`, from the directory, the name, and the size of a file. -/
def lineOf (dir name : Str) : Option Nat → Str
  | none => (dir ++ '/' :: (name ++ ['/'])) ++ " (".toList ++ Nat.toDigits 10 0 ++ " bytes)".toList
  | some n => (dir ++ '/' :: name) ++ " (".toList ++ Nat.toDigits 10 n ++ " bytes)".toList

theorem lineOf_inj {d d' n n' : Str} {k k' : Option Nat} (hn : n ≠ [] ∧ '/' ∉ n) (hn' : n' ≠ [] ∧ '/' ∉ n')
    (h : lineOf d n k = lineOf d' n' k') : d = d' ∧ n = n' ∧ k = k' := by
  cases k with
  | none =>
    cases k' with
    | none =>
      obtain ⟨h1, _⟩ := sized_inj h
      have e (d n : Str) : d ++ '/' :: (n ++ ['/']) = (d ++ '/' :: n) ++ ['/'] := by simp
      rw [e, e] at h1
      obtain ⟨h2, h3⟩ := cut_last hn.2 hn'.2 (List.append_cancel_right h1)
      exact ⟨h3, h2, rfl⟩
    | some m =>
      obtain ⟨h1, _⟩ := sized_inj h
      have e (d n : Str) : d ++ '/' :: (n ++ ['/']) = (d ++ '/' :: n) ++ '/' :: [] := by simp
      rw [e] at h1
      exact absurd (cut_last (by simp) hn'.2 h1).1.symm hn'.1
  | some m =>
    cases k' with
    | none =>
      obtain ⟨h1, _⟩ := sized_inj h
      have e (d n : Str) : d ++ '/' :: (n ++ ['/']) = (d ++ '/' :: n) ++ '/' :: [] := by simp
      rw [e] at h1
      exact absurd (cut_last hn.2 (by simp) h1).1 hn.1
    | some m' =>
      obtain ⟨h1, h4⟩ := sized_inj h
      obtain ⟨h2, h3⟩ := cut_last hn.2 hn'.2 h1
      exact ⟨h3, h2, by rw [h4]⟩

theorem treeLine_eq (x : Str × DirEnt) : treeLine x = lineOf (told x).1 (told x).2.1 (told x).2.2 := by
  unfold treeLine told
  split
  · rename_i h
    simp [h, lineOf]
  · rename_i h
    simp [h, lineOf, Nat.repr]

theorem oneLine_append {a b : Str} (ha : OneLine a) (hb : OneLine b) : OneLine (a ++ b) := by
  unfold OneLine at *
  simp [ha, hb]

theorem oneLine_digits (n : Nat) : OneLine (Nat.toDigits 10 n) := not_digit (by decide) n

theorem lineOf_oneLine {d n : Str} (hd : OneLine d) (hn : OneLine n) (k : Option Nat) : OneLine (lineOf d n k) := by
  have e1 : OneLine " (".toList := by unfold OneLine; decide
  have e2 : OneLine " bytes)".toList := by unfold OneLine; decide
  cases k with
  | none =>
    refine oneLine_append (oneLine_append (oneLine_append ?_ e1) (oneLine_digits _)) e2
    unfold OneLine at *
    simp [hd, hn]
  | some m =>
    refine oneLine_append (oneLine_append (oneLine_append ?_ e1) (oneLine_digits _)) e2
    unfold OneLine at *
    simp [hd, hn]

theorem footer_oneLine (c t : Nat) {s : Str} (hs : OneLine s) : OneLine (treeFooter c t s) := by
  have e1 : OneLine " files, ".toList := by unfold OneLine; decide
  have e2 : OneLine " bytes in ".toList := by unfold OneLine; decide
  unfold treeFooter
  simp only [Nat.repr, String.toList_ofList]
  exact oneLine_append (oneLine_append (oneLine_append (oneLine_append (oneLine_digits _) e1) (oneLine_digits _)) e2) hs

/-! ## The lines of `info` -/

theorem infoField_inj {l a b : Str} (h : infoField l a = infoField l b) : a = b := by
  unfold infoField at h
  exact (List.cons.inj (List.append_cancel_left h)).2

theorem infoField_oneLine {l a : Str} (hl : OneLine l) (ha : OneLine a) : OneLine (infoField l a) := by
  unfold infoField OneLine at *
  simp [ha, hl]

theorem linkText_inj {a b : Option Nat} (h : linkText a = linkText b) : a = b := by
  have hsp : ' ' ∉ "None".toList := by decide
  cases a with
  | none =>
    cases b with
    | none => rfl
    | some n =>
      exfalso; apply hsp
      have h' : "None".toList = Nat.toDigits 10 n ++ " bytes".toList := h
      rw [h']; simp
  | some m =>
    cases b with
    | none =>
      exfalso; apply hsp
      have h' : Nat.toDigits 10 m ++ " bytes".toList = "None".toList := h
      rw [← h']; simp
    | some n => rw [toDigits_inj (List.append_cancel_right h)]

theorem linkText_oneLine (a : Option Nat) : OneLine (linkText a) := by
  cases a with
  | none => unfold OneLine; decide
  | some n => exact oneLine_append (oneLine_digits n) (by unfold OneLine; decide)

theorem placeText_inj {a b c d : Nat} (h : placeText a b = placeText c d) : a = c ∧ b = d := by
  unfold placeText at h
  obtain ⟨h1, h2⟩ := sized_inj h
  exact ⟨toDigits_inj (List.append_cancel_left h1), h2⟩

theorem placeText_oneLine (a b : Nat) : OneLine (placeText a b) := by
  unfold placeText
  refine oneLine_append (oneLine_append (oneLine_append (oneLine_append ?_ (oneLine_digits _)) ?_) (oneLine_digits _)) ?_ <;>
    (unfold OneLine; decide)

theorem mem_joinSpaces {c : Char} (hc : c ≠ ' ') : ∀ ws : List Str, c ∈ joinSpaces ws ↔ ∃ w ∈ ws, c ∈ w
  | [] => by simp [joinSpaces]
  | [w] => by simp [joinSpaces]
  | w :: v :: ws => by
    have := mem_joinSpaces hc (v :: ws)
    simp only [joinSpaces, List.mem_append, List.mem_cons, hc, false_or] at this ⊢
    rw [this]
    constructor
    · rintro (h | ⟨x, hx, h⟩)
      · exact ⟨w, Or.inl rfl, h⟩
      · exact ⟨x, Or.inr hx, h⟩
    · rintro ⟨x, rfl | hx, h⟩
      · exact Or.inl h
      · exact Or.inr ⟨x, hx, h⟩

theorem mem_attrsText {c : Char} (hc : c ≠ ' ') (a : UInt8) : c ∈ attrsText a ↔
    (a &&& 0x10 ≠ 0 ∧ c ∈ "Directory".toList) ∨ (a &&& 0x01 ≠ 0 ∧ c ∈ "Read-Only".toList) ∨
    (a &&& 0x02 ≠ 0 ∧ c ∈ "Hidden".toList) ∨ (a &&& 0x04 ≠ 0 ∧ c ∈ "System".toList) ∨
    (a &&& 0x20 ≠ 0 ∧ c ∈ "Archive".toList) ∨ (a &&& 0x80 ≠ 0 ∧ c ∈ "Normal".toList) := by
  have key (p : Prop) [Decidable p] (s : Str) : (∃ w ∈ (if p then [s] else []), c ∈ w) ↔ p ∧ c ∈ s := by
    by_cases h : p <;> simp [h]
  unfold attrsText
  rw [mem_joinSpaces hc, attrWords]
  simp only [List.mem_append, or_and_right, exists_or, key, or_assoc]

theorem attrsText_oneLine (a : UInt8) : OneLine (attrsText a) := by
  unfold OneLine
  rw [mem_attrsText (by decide)]
  rintro (⟨_, h⟩ | ⟨_, h⟩ | ⟨_, h⟩ | ⟨_, h⟩ | ⟨_, h⟩ | ⟨_, h⟩) <;> exact absurd h (by decide)

theorem bit_set {a k : UInt8} {i : Nat} (hk : k.toNat = 2 ^ i) : a &&& k ≠ 0 ↔ a.toNat.testBit i = true := by
  rw [Ne, ← UInt8.toNat_inj, UInt8.toNat_and, hk]
  constructor
  · intro h
    cases hb : a.toNat.testBit i with
    | true => rfl
    | false =>
      refine absurd (Nat.eq_of_testBit_eq (fun j => ?_)) h
      by_cases hj : i = j
      · subst hj; simp [hb]
      · simp [Nat.testBit_two_pow, hj]
  · intro h h0
    have := congrArg (fun n => Nat.testBit n i) h0
    simp [h] at this

theorem bit_eq {a b k : UInt8} {i : Nat} (hk : k.toNat = 2 ^ i) (h : a &&& k ≠ 0 ↔ b &&& k ≠ 0) :
    a.toNat.testBit i = b.toNat.testBit i := by
  rw [bit_set hk, bit_set hk] at h
  exact Bool.eq_iff_iff.2 h

theorem attrsText_inj {a b : UInt8} (h : attrsText a = attrsText b) : SameFlags a b := by
  have k (c : Char) : c ∈ attrsText a ↔ c ∈ attrsText b := by rw [h]
  have kD := k 'D'
  have kR := k 'R'
  have kH := k 'H'
  have kS := k 'S'
  have kA := k 'A'
  have kN := k 'N'
  rw [mem_attrsText (by decide), mem_attrsText (by decide)] at kD kR kH kS kA kN
  simp at kD kR kH kS kA kN
  have b4 := bit_eq (i := 4) (by rfl) kD
  have b0 := bit_eq (i := 0) (by rfl) kR
  have b1 := bit_eq (i := 1) (by rfl) kH
  have b2 := bit_eq (i := 2) (by rfl) kS
  have b5 := bit_eq (i := 5) (by rfl) kA
  have b7 := bit_eq (i := 7) (by rfl) kN
  unfold SameFlags
  rw [← UInt8.toNat_inj, UInt8.toNat_and, UInt8.toNat_and]
  refine Nat.eq_of_testBit_eq (fun i => ?_)
  rw [Nat.testBit_and, Nat.testBit_and]
  match i with
  | 0 => rw [b0]
  | 1 => rw [b1]
  | 2 => rw [b2]
  | 3 => rw [show (0xb7 : UInt8).toNat.testBit 3 = false from by decide]; simp
  | 4 => rw [b4]
  | 5 => rw [b5]
  | 6 => rw [show (0xb7 : UInt8).toNat.testBit 6 = false from by decide]; simp
  | 7 => rw [b7]
  | i + 8 =>
    have (a : UInt8) : a.toNat.testBit (i + 8) = false :=
      Nat.testBit_lt_two_pow (Nat.lt_of_lt_of_le a.toNat_lt (Nat.pow_le_pow_right (by decide) (by omega)))
    rw [this a, this b]

theorem direntLines_inj {i j : DirentInfo} (h : direntLines i = direntLines j) : SameEntry i j := by
  simp only [direntLines, List.cons.injEq, and_true] at h
  obtain ⟨h1, h2, h3, h4, h5, h6⟩ := h
  obtain ⟨h7, h8⟩ := placeText_inj (infoField_inj h5)
  exact ⟨infoField_inj h1, toDigits_inj (infoField_inj h2), linkText_inj (infoField_inj h3), linkText_inj (infoField_inj h4),
    h7, h8, attrsText_inj (infoField_inj h6)⟩

theorem direntLines_length (i : DirentInfo) : (direntLines i).length = 6 := rfl

theorem direntLines_oneLine {i : DirentInfo} (h : OneLine i.name) : ∀ s ∈ direntLines i, OneLine s := by
  intro s hs
  simp only [direntLines, List.mem_cons, List.not_mem_nil, or_false] at hs
  rcases hs with rfl | rfl | rfl | rfl | rfl | rfl
  · exact infoField_oneLine (by unfold OneLine; decide) h
  · exact infoField_oneLine (by unfold OneLine; decide) (oneLine_digits _)
  · exact infoField_oneLine (by unfold OneLine; decide) (linkText_oneLine _)
  · exact infoField_oneLine (by unfold OneLine; decide) (linkText_oneLine _)
  · exact infoField_oneLine (by unfold OneLine; decide) (placeText_oneLine _ _)
  · exact infoField_oneLine (by unfold OneLine; decide) (attrsText_oneLine _)

theorem subdirLines_oneLine {i : DirentInfo} (h : OneLine i.name) : ∀ s ∈ subdirLines i, OneLine s := by
  intro s hs
  simp only [subdirLines, List.cons_append, List.mem_cons, List.mem_append, List.not_mem_nil, or_false] at hs
  rcases hs with rfl | hs | rfl
  · exact h
  · exact direntLines_oneLine h s hs
  · unfold OneLine; simp

theorem subdirs_inj : ∀ {l m : List DirentInfo}, l.flatMap subdirLines = m.flatMap subdirLines → SameEntries l m
  | [], [], _ => .nil
  | [], j :: m, h => by simp [subdirLines] at h
  | i :: l, [], h => by simp [subdirLines] at h
  | i :: l, j :: m, h => by
    simp only [List.flatMap_cons] at h
    obtain ⟨h1, h2⟩ := List.append_inj h (by simp [subdirLines, direntLines_length])
    simp only [subdirLines, List.cons_append] at h1
    exact .cons (direntLines_inj (List.append_cancel_right (List.cons.inj h1).2)) (subdirs_inj h2)

theorem sameFlags_dir {a b : UInt8} (h : SameFlags a b) : a &&& 0x10 ≠ 0 ↔ b &&& 0x10 ≠ 0 := by
  have e : (0x10 : UInt8) = 0xb7 &&& 0x10 := by decide
  unfold SameFlags at h
  rw [e, ← UInt8.and_assoc, ← UInt8.and_assoc, h]

end Xdvdfs.Props
