import Verif.Spec.CompressArgs
import Verif.Proof.CliPaths
import Verif.Proof.LinearMain
import Verif.Proof.LinearImg
import Verif.Proof.StdFs
import Verif.Proof.MemDev
import Verif.Props.Compress

/-!
# `compress`
-/

namespace Xdvdfs

open Spec

/-! ## Names -/

theorem splitExt_dot {s e : Str} (hs : s ≠ []) (he : '.' ∉ e) (hne : e ≠ []) : splitExt (s ++ '.' :: e) = (s, some e) := by
  have hdd : s ++ '.' :: e ≠ ['.', '.'] := by
    intro h
    cases s with
    | nil => exact hs rfl
    | cons a s =>
      cases s with
      | nil => simp at h; exact hne h.2
      | cons b s => simp at h
  have hrev : (s ++ '.' :: e).reverse = e.reverse ++ '.' :: s.reverse := by simp
  have hall : ∀ c ∈ e.reverse, decide (c ≠ '.') = true := by
    intro c hc
    rw [List.mem_reverse] at hc
    simp only [decide_eq_true_eq]
    rintro rfl
    exact he hc
  unfold splitExt
  rw [if_neg hdd, hrev, List.dropWhile_append_of_pos hall, List.takeWhile_append_of_pos hall]
  simp [hs]

theorem splitExt_spec (name : Str) :
    ((splitExt name).2 = none → (splitExt name).1 = name) ∧
    ∀ e, (splitExt name).2 = some e → name = (splitExt name).1 ++ '.' :: e := by
  unfold splitExt
  split
  · exact ⟨fun _ => rfl, nofun⟩
  · have hsplit := List.takeWhile_append_dropWhile (p := fun c => decide (c ≠ '.')) (l := name.reverse)
    have hname : name = (name.reverse.dropWhile (fun c => decide (c ≠ '.'))).reverse ++
        (name.reverse.takeWhile (fun c => decide (c ≠ '.'))).reverse := by
      rw [← List.reverse_append, hsplit, List.reverse_reverse]
    cases hd : name.reverse.dropWhile (fun c => decide (c ≠ '.')) with
    | nil => exact ⟨fun _ => rfl, nofun⟩
    | cons c before =>
      have hc : c = '.' := by
        have h1 := List.head?_dropWhile_not (fun c => decide (c ≠ '.')) name.reverse
        rw [hd] at h1
        simpa using h1
      subst hc
      rw [hd] at hname
      simp only [List.reverse_cons, List.append_assoc, List.cons_append, List.nil_append] at hname
      simp only
      split
      · exact ⟨fun _ => rfl, nofun⟩
      · refine ⟨nofun, ?_⟩
        intro e he
        cases he
        exact hname

theorem digits_plain {n : Nat} {c : Char} (hc : c ∈ Nat.toDigits 10 n) : c ≠ '.' ∧ c ≠ '/' ∧ c ≠ Char.ofNat 0 := by
  have := Nat.isDigit_of_mem_toDigits (by decide) (by decide) hc
  refine ⟨?_, ?_, ?_⟩ <;> (rintro rfl; revert this; decide)

theorem stem_nonempty {name stem : Str} (hn : HostName name) (hs : HasStem name stem) : stem ≠ [] := by
  rcases hs with ⟨_, _, _, h⟩ | ⟨rfl, _⟩
  · exact h
  · exact hn.1

theorem stem_chars {name stem : Str} (hs : HasStem name stem) {c : Char} (hc : c ∈ stem) : c ∈ name := by
  rcases hs with ⟨_, rfl, _, _⟩ | ⟨rfl, _⟩
  · simp [hc]
  · exact hc

/-- A name that can be the stem of the name of a part. -/
def StemOk (stem : Str) : Prop := stem ≠ [] ∧ '/' ∉ stem ∧ Char.ofNat 0 ∉ stem

theorem stem_ok {name stem : Str} (hn : HostName name) (hs : HasStem name stem) : StemOk stem :=
  ⟨stem_nonempty hn hs, fun h => hn.2.1 (stem_chars hs h), fun h => hn.2.2.1 (stem_chars hs h)⟩

theorem dotted_name {stem ext : Str} (hs : StemOk stem) (h1 : '/' ∉ ext) (h2 : Char.ofNat 0 ∉ ext) (h3 : ext ≠ []) :
    HostName (stem ++ '.' :: ext) := by
  obtain ⟨a, b, c⟩ := hs
  refine ⟨by simp, ?_, ?_, ?_, ?_⟩
  · intro h
    simp only [List.mem_append, List.mem_cons] at h
    rcases h with h | h | h
    · exact b h
    · revert h; decide
    · exact h1 h
  · intro h
    simp only [List.mem_append, List.mem_cons] at h
    rcases h with h | h | h
    · exact c h
    · revert h; decide
    · exact h2 h
  · intro h
    cases stem with
    | nil => exact a rfl
    | cons x xs => simp at h
  · intro h
    cases stem with
    | nil => exact a rfl
    | cons x xs =>
      cases xs with
      | nil => simp at h; exact h3 h.2
      | cons y ys => simp at h

theorem partExt_mem {i : Nat} {c : Char} (h : c ∈ partExt i) : c ≠ '/' ∧ c ≠ Char.ofNat 0 := by
  unfold partExt at h
  rcases List.mem_append.1 h with h | h
  · exact (digits_plain h).2
  · simp only [List.mem_cons, List.not_mem_nil, or_false] at h
    rcases h with rfl | rfl | rfl | rfl <;> decide

theorem partFile_name {stem : Str} (hs : StemOk stem) (i : Nat) : HostName (partFile stem i) :=
  dotted_name hs (fun h => (partExt_mem (i := i) h).1 rfl) (fun h => (partExt_mem (i := i) h).2 rfl) (by simp)

theorem partFile_inj {stem : Str} {i j : Nat} (h : partFile stem i = partFile stem j) : i = j := by
  unfold partFile at h
  simp only [List.append_cancel_left_eq, List.cons.injEq, true_and, List.append_cancel_right_eq] at h
  have := congrArg (fun l => Nat.ofDigitChars 10 l 0) h
  simpa [Nat.ofDigitChars_ten_toDigits] using this

/-! ## Path strings -/

theorem hostComps_last {dir n : Str} (hd : DirPrefix dir) (h1 : '/' ∉ n) (h2 : n ≠ []) :
    hostComps (dir ++ n) = hostComps dir ++ [n] := by
  rcases hd with rfl | hd
  · rw [List.nil_append, hostComps_nil, List.nil_append, hostComps_plain h1 h2]
  · obtain ⟨b, rfl⟩ := getLast_split hd
    have e1 : b ++ ['/'] ++ n = b ++ '/' :: n := by simp
    rw [e1, hostComps_join, hostComps_join, hostComps_plain h1 h2, hostComps_nil, List.append_nil]

theorem fileName_append {dir n : Str} (hd : DirPrefix dir) (hn : HostName n) : fileName (dir ++ n) = some n := by
  refine fileName_last ⟨(hostComps dir).filter (fun c => decide (c ≠ ['.'])), ?_⟩ hn.2.2.2.2
  rw [hostComps_last hd hn.2.1 hn.1, List.filter_append, List.filter_cons_of_pos (by simpa using hn.2.2.2.1)]
  rfl

theorem trimTail_append {dir n : Str} (hd : DirPrefix dir) (hn : HostName n) :
    (trimTail (dir ++ n).reverse).reverse = dir ++ n := by
  obtain ⟨b, c, rfl⟩ : ∃ b c, n = b ++ [c] :=
    ⟨n.dropLast, n.getLast hn.1, (List.dropLast_concat_getLast hn.1).symm⟩
  have e : (dir ++ (b ++ [c])).reverse = c :: (dir ++ b).reverse := by simp
  have hc : c ≠ '/' := by rintro rfl; exact hn.2.1 (by simp)
  rw [e]
  unfold trimTail
  rw [if_neg hc, if_neg]
  · simp
  · rintro ⟨rfl, hh⟩
    by_cases h0 : b = []
    · subst h0; exact hn.2.2.2.1 rfl
    · obtain ⟨b', x, rfl⟩ : ∃ b' x, b = b' ++ [x] := ⟨b.dropLast, b.getLast h0, (List.dropLast_concat_getLast h0).symm⟩
      simp at hh
      subst hh
      exact hn.2.1 (by simp)

theorem pathWithExtension_append {dir n : Str} (ext : Str) (hd : DirPrefix dir) (hn : HostName n) :
    pathWithExtension (dir ++ n) ext = dir ++ stdWithExtension n ext := by
  unfold pathWithExtension
  rw [fileName_append hd hn]
  simp only [trimTail_append hd hn]
  congr 1
  rw [List.length_append, Nat.add_sub_cancel, List.take_left]

theorem pathExtension_append {dir n : Str} (hd : DirPrefix dir) (hn : HostName n) :
    pathExtension (dir ++ n) = (splitExt n).2 := by
  unfold pathExtension
  rw [fileName_append hd hn]

theorem start_append {h : Host} {dir n : Str} (hd : DirPrefix dir) (hn : '/' ∉ n) :
    h.start (dir ++ n) = if dir = [] then h.cwd else h.start dir := by
  unfold Host.start
  by_cases h0 : dir = []
  · subst h0
    rw [if_pos rfl, List.nil_append, if_neg]
    exact head_of_plain hn
  · rw [if_neg h0]
    cases dir with
    | nil => exact absurd rfl h0
    | cons a as => rfl

theorem hostWalk_append {fs : HostFs} : ∀ (a b : List Str) (cur : HostPath),
    hostWalk fs cur (a ++ b) = (hostWalk fs cur a >>= fun p => hostWalk fs p b) := by
  intro a
  induction a with
  | nil => intro b cur; rfl
  | cons c cs ih =>
    intro b cur
    simp only [List.cons_append, hostWalk]
    split
    · rfl
    · split
      · exact ih _ _
      · split
        · exact ih _ _
        · exact ih _ _

theorem resolve_append {h : Host} {fs : HostFs} {dir n : Str} {d : HostPath} (hd : PrefixNames h fs dir d)
    (hn : HostName n) : h.resolve fs (dir ++ n) = .ok (d ++ [n]) := by
  obtain ⟨h1, h2, h3⟩ := hd
  have hw : hostWalk fs (h.start (dir ++ n)) (hostComps (dir ++ n)) = .ok (d ++ [n]) := by
    rw [hostComps_last h1 hn.2.1 hn.1, hostWalk_append, start_append h1 hn.2.1]
    have : hostWalk fs (if dir = [] then h.cwd else h.start dir) (hostComps dir) = .ok d := by
      rcases h3 with ⟨rfl, rfl⟩ | ⟨h0, h3⟩
      · rw [if_pos rfl]; rfl
      · rw [if_neg h0]
        unfold Host.resolve at h3
        split at h3
        · cases h3
        · exact h3
    rw [this, Res.ok_bind]
    simp only [hostWalk, h2, ne_eq, not_true_eq_false, if_false]
    rw [if_neg hn.2.2.2.1, if_neg hn.2.2.2.2]
  unfold Host.resolve
  rw [if_neg, hw]
  rintro (h0 | h0)
  · exact hn.1 (List.append_eq_nil_iff.1 h0).2
  · rcases List.mem_append.1 h0 with h0 | h0
    · rcases h3 with ⟨rfl, _⟩ | ⟨_, h3⟩
      · cases h0
      · unfold Host.resolve at h3
        rw [if_pos (.inr h0)] at h3
        cases h3
    · exact hn.2.2.1 h0

theorem place_append {h : Host} {fs : HostFs} {dir n : Str} {d : HostPath} (hd : PrefixNames h fs dir d)
    (hn : HostName n) : placeOf h (dir ++ n) = d ++ [n] := (resolve_place (resolve_append hd hn)).symm

theorem getLast_append {dir n : Str} (hn : HostName n) : (dir ++ n).getLast? ≠ some '/' := by
  obtain ⟨b, c, rfl⟩ : ∃ b c, n = b ++ [c] :=
    ⟨n.dropLast, n.getLast hn.1, (List.dropLast_concat_getLast hn.1).symm⟩
  rw [← List.append_assoc, List.getLast?_concat]
  intro h
  cases h
  exact hn.2.1 (by simp)

theorem splitSlash_name {dir n : Str} (hd : DirPrefix dir) (hn : '/' ∉ n) : (splitSlash (dir ++ n)).getLast? = some n := by
  rcases hd with rfl | hd
  · have := splitSlash_last (a := []) hn
    rw [show pathJoin [] n = n by
      unfold pathJoin
      rw [if_neg (head_of_plain hn), if_pos (.inl rfl)]
      rfl] at this
    exact this
  · have := splitSlash_last (a := dir) hn
    rw [show pathJoin dir n = dir ++ n by
      unfold pathJoin
      rw [if_neg (head_of_plain hn), if_pos (.inr hd)]] at this
    exact this

theorem stat_append {h : Host} {fs : HostFs} {dir n : Str} {d : HostPath} (hd : PrefixNames h fs dir d)
    (hn : HostName n) : h.stat fs (dir ++ n) = (fs (d ++ [n])).map (fun x => (d ++ [n], x)) := by
  unfold Host.stat
  rw [resolve_append hd hn]
  simp only
  cases hx : fs (d ++ [n]) with
  | none => rfl
  | some x =>
    cases x with
    | dir => rfl
    | file b => simp only [if_neg (getLast_append hn)]; rfl

/-! ## Hosts that differ in files only -/

/-- The two hosts have the same directories. -/
def SameDirs (a b : HostFs) : Prop := ∀ q, a q = some .dir ↔ b q = some .dir

theorem hostWalk_sameDirs {a b : HostFs} (hab : SameDirs a b) : ∀ (cs : List Str) (cur : HostPath),
    hostWalk a cur cs = hostWalk b cur cs := by
  intro cs
  induction cs with
  | nil => intro cur; rfl
  | cons c cs ih =>
    intro cur
    simp only [hostWalk, ne_eq, hab cur, ih]

theorem resolve_sameDirs {a b : HostFs} (hab : SameDirs a b) (h : Host) (path : Str) :
    h.resolve a path = h.resolve b path := by
  unfold Host.resolve
  rw [hostWalk_sameDirs hab]

theorem prefixNames_sameDirs {h : Host} {a b : HostFs} {dir : Str} {d : HostPath} (hd : PrefixNames h a dir d)
    (hab : SameDirs a b) : PrefixNames h b dir d := by
  refine ⟨hd.1, (hab d).1 hd.2.1, ?_⟩
  rcases hd.2.2 with h1 | ⟨h1, h2⟩
  · exact .inl h1
  · exact .inr ⟨h1, by rw [← resolve_sameDirs hab]; exact h2⟩

/-- The second host differs from the first in files at some of the given places, which are no directories. -/
def PartsChange (places : Nat → HostPath) (a b : HostFs) : Prop :=
  ∀ q, b q = a q ∨ (a q ≠ some .dir ∧ (∃ x, b q = some (.file x)) ∧ ∃ i, q = places i)

theorem PartsChange.refl (places : Nat → HostPath) (a : HostFs) : PartsChange places a a := fun _ => .inl rfl

theorem PartsChange.trans {places : Nat → HostPath} {a b c : HostFs} (h1 : PartsChange places a b)
    (h2 : PartsChange places b c) : PartsChange places a c := by
  intro q
  rcases h2 q with k | ⟨k1, k2, k3⟩
  · rw [k]; exact h1 q
  · refine .inr ⟨?_, k2, k3⟩
    rcases h1 q with j | ⟨j, _⟩
    · rw [← j]; exact k1
    · exact j

theorem PartsChange.sameDirs {places : Nat → HostPath} {a b : HostFs} (h : PartsChange places a b) : SameDirs a b := by
  intro q
  rcases h q with k | ⟨k1, ⟨x, k2⟩, _⟩
  · rw [k]
  · rw [k2]; exact ⟨fun hx => absurd hx k1, nofun⟩

theorem partsChange_set {places : Nat → HostPath} {a : HostFs} {p : HostPath} {x : Bytes} (hp : a p ≠ some .dir)
    (hi : ∃ i, p = places i) : PartsChange places a (a.set p (.file x)) := by
  intro q
  by_cases hq : q = p
  · subst hq; exact .inr ⟨hp, ⟨x, set_same _ _ _⟩, hi⟩
  · exact .inl (set_other hq)

variable {h : Host} {c : Ciso} {image : Str}

theorem writeParts_changes : ∀ (bs : List Bytes) (i : Nat) {fs fs' : HostFs} {r},
    writeParts h c image i bs fs = (r, fs') → PartsChange (fun i => placeOf h (c.partName image i)) fs fs' := by
  intro bs
  induction bs with
  | nil => intro i fs fs' r hw; cases hw; exact .refl _ _
  | cons b bs ih =>
    intro i fs fs' r hw
    simp only [writeParts] at hw
    rcases hx : h.writeFile (c.partName image i) (.ok b) fs with ⟨r1, fs1⟩
    have h1 : PartsChange (fun i => placeOf h (c.partName image i)) fs fs1 := by
      rcases writeFile_changes hx with rfl | ⟨k1, _, x, rfl⟩
      · exact .refl _ _
      · exact partsChange_set k1 ⟨i, rfl⟩
    rw [hx] at hw
    cases r1 with
    | ok u => exact h1.trans (ih _ hw)
    | err e => cases hw; exact h1
    | panic => cases hw; exact h1
    | hang => cases hw; exact h1

theorem encodeLoop_changes {copy : HostFs → BufCopier} {m : SecMap} : ∀ (n : Nat) (secs : List Bytes) {fs fs' : HostFs} {r},
    encodeLoop h c image copy m n secs fs = (r, fs') →
    PartsChange (fun i => placeOf h (c.partName image i)) fs fs' := by
  intro n
  induction n with
  | zero => intro secs fs fs' r hw; exact writeParts_changes _ _ hw
  | succ n ih =>
    intro secs fs fs' r hw
    simp only [encodeLoop] at hw
    rcases hx : writeParts h c image 0 (c.partial_ (secs.length + n + 1) secs) fs with ⟨r1, fs1⟩
    have h1 := writeParts_changes _ _ hx
    rw [hx] at hw
    cases r1 with
    | ok u =>
      simp only at hw
      split at hw
      · exact h1.trans (ih _ hw)
      · cases hw; exact h1
      · cases hw; exact h1
      · cases hw; exact h1
    | err e => cases hw; exact h1
    | panic => cases hw; exact h1
    | hang => cases hw; exact h1

theorem compressDir_changes {t : Tool} {r : DirReader} {most : Path → (off n : Nat) → Nat} {fs fs' : HostFs}
    {src : HostPath} {res} (hc : compressDir h t r most c fs src image = (res, fs')) :
    PartsChange (fun i => placeOf h (c.partName image i)) fs fs' := by
  unfold compressDir at hc
  split at hc
  · exact encodeLoop_changes _ _ hc
  all_goals (cases hc; exact .refl _ _)

theorem compressImage_changes {t : Tool} {fs fs' : HostFs} {src : HostPath} {img : Bytes} {res}
    (hc : compressImage h t c fs src img image = (res, fs')) :
    PartsChange (fun i => placeOf h (c.partName image i)) fs fs' := by
  unfold compressImage at hc
  split at hc
  · split at hc
    · split at hc
      · exact encodeLoop_changes _ _ hc
      all_goals (cases hc; exact .refl _ _)
    all_goals (cases hc; exact .refl _ _)
  all_goals (cases hc; exact .refl _ _)

/-- Where the output goes. -/
def compressDest (source : Str) (node : HostNode) : Option Str → Res Str
  | some s => .ok s
  | none => defaultCompressArg source (node = .dir)

theorem cmdCompressArgs_eq {t : Tool} {r : DirReader} {most : Path → (off n : Nat) → Nat} {fs : HostFs} {source : Str}
    {image : Option Str} {src : HostPath} {node : HostNode} {s : Str} (hs : h.stat fs source = some (src, node))
    (hd : compressDest source node image = .ok s) :
    cmdCompressArgs h t r most c fs source image =
      if compressRefused h fs source s then (.err .other, fs)
      else match node with
        | .dir => compressDir h t r most c fs src s
        | .file img => compressImage h t c fs src img s := by
  unfold cmdCompressArgs
  simp only [hs]
  cases image with
  | some s' => cases hd; rfl
  | none =>
    simp only [compressDest] at hd
    simp only [hd]
    rfl

/-- Whatever the outcome of `compress`, all that changes are files at the places of parts. -/
theorem cmdCompressArgs_changes {t : Tool} {r : DirReader} {most : Path → (off n : Nat) → Nat} {fs fs' : HostFs}
    {source : Str} {image : Option Str} {res} (hc : cmdCompressArgs h t r most c fs source image = (res, fs')) :
    fs' = fs ∨ ∃ src node s, h.stat fs source = some (src, node) ∧ compressDest source node image = .ok s ∧
      compressRefused h fs source s = false ∧ PartsChange (fun i => placeOf h (c.partName s i)) fs fs' := by
  cases hs : h.stat fs source with
  | none =>
    unfold cmdCompressArgs at hc
    simp only [hs] at hc
    cases hc; exact .inl rfl
  | some x =>
    obtain ⟨src, node⟩ := x
    cases hd : compressDest source node image with
    | ok s =>
      rw [cmdCompressArgs_eq hs hd] at hc
      split at hc
      · cases hc; exact .inl rfl
      · next hr =>
        refine .inr ⟨src, node, s, rfl, hd, by simpa using hr, ?_⟩
        cases node with
        | dir => exact compressDir_changes hc
        | file img => exact compressImage_changes hc
    | _ =>
      unfold cmdCompressArgs at hc
      simp only [hs] at hc
      cases image with
      | some s' => cases hd
      | none =>
        simp only [compressDest] at hd
        simp only [hd] at hc
        cases hc; exact .inl rfl

/-! ## Parts beside each other -/

theorem writeFile_append {fs : HostFs} {dir n : Str} {d : HostPath} (hd : PrefixNames h fs dir d) (hn : HostName n)
    (b : Bytes) : h.writeFile (dir ++ n) (.ok b) fs =
      if fs (d ++ [n]) = some .dir then (.err .io, fs)
      else match h.faults (d ++ [n]) with
        | .refuse => (.err .io, fs)
        | .cut k => (.err .io, fs.set (d ++ [n]) (.file (b.take k)))
        | .none => (.ok (), fs.set (d ++ [n]) (.file b)) := by
  unfold Host.writeFile
  rw [resolve_append hd hn]
  simp only [splitSlash_name hd.1 hn.2.1, Option.some.injEq, hn.1, hn.2.2.2.1, hn.2.2.2.2, or_false]
  rfl

/-- The parts are beside each other in the directory `d`. -/
structure Beside (h : Host) (c : Ciso) (image dir stem : Str) (d : HostPath) : Prop where
  ok : StemOk stem
  names : ∀ i, c.partName image i = dir ++ partFile stem (i + 1)

/-- The place of part `i`, counted from 0. -/
def partPlace (d : HostPath) (stem : Str) (i : Nat) : HostPath := d ++ [partFile stem (i + 1)]

theorem partPlace_inj {d : HostPath} {stem : Str} {i j : Nat} (he : partPlace d stem i = partPlace d stem j) : i = j := by
  unfold partPlace at he
  simp only [List.append_cancel_left_eq, List.cons.injEq, and_true] at he
  have := partFile_inj he
  omega

variable {dir stem : Str} {d : HostPath}

theorem Beside.place (hb : Beside h c image dir stem d) {fs : HostFs} (hd : PrefixNames h fs dir d) (i : Nat) :
    placeOf h (c.partName image i) = partPlace d stem i := by
  rw [hb.names]; exact place_append hd (partFile_name hb.ok _)

theorem writeParts_ok (hb : Beside h c image dir stem d) : ∀ (bs : List Bytes) (i : Nat) {fs fs' : HostFs},
    PrefixNames h fs dir d → writeParts h c image i bs fs = (.ok (), fs') →
    (∀ j b, bs[j]? = some b → fs' (partPlace d stem (i + j)) = some (.file b)) ∧
    ∀ q, (∀ j, j < bs.length → q ≠ partPlace d stem (i + j)) → fs' q = fs q := by
  intro bs
  induction bs with
  | nil => intro i fs fs' _ hw; cases hw; exact ⟨by simp, fun _ _ => rfl⟩
  | cons b bs ih =>
    intro i fs fs' hd hw
    simp only [writeParts, hb.names, writeFile_append hd (partFile_name hb.ok (i + 1))] at hw
    by_cases hdir : fs (d ++ [partFile stem (i + 1)]) = some .dir
    · rw [if_pos hdir] at hw; cases hw
    · rw [if_neg hdir] at hw
      cases hf : h.faults (d ++ [partFile stem (i + 1)]) with
      | refuse => rw [hf] at hw; cases hw
      | cut k => rw [hf] at hw; cases hw
      | none =>
        rw [hf] at hw
        simp only at hw
        have hsd : SameDirs fs (fs.set (d ++ [partFile stem (i + 1)]) (.file b)) :=
          (partsChange_set (places := fun _ => d ++ [partFile stem (i + 1)]) hdir ⟨0, rfl⟩).sameDirs
        obtain ⟨k1, k2⟩ := ih (i + 1) (prefixNames_sameDirs hd hsd) hw
        constructor
        · intro j x hj
          cases j with
          | zero =>
            simp only [List.getElem?_cons_zero, Option.some.injEq] at hj
            subst hj
            rw [k2, Nat.add_zero]
            · exact set_same _ _ _
            · intro j _ he
              have := partPlace_inj he
              omega
          | succ j =>
            rw [List.getElem?_cons_succ] at hj
            have := k1 j x hj
            rwa [show i + 1 + j = i + (j + 1) by omega] at this
        · intro q hq
          rw [k2]
          · exact set_other (by have := hq 0 (by simp); exact this)
          · intro j hj
            have := hq (j + 1) (by simp; omega)
            rwa [show i + (j + 1) = i + 1 + j by omega] at this

/-- Parts can be written if nothing fails and none of them is a directory. -/
theorem writeParts_succeeds (hb : Beside h c image dir stem d) : ∀ (bs : List Bytes) (i : Nat) {fs : HostFs},
    PrefixNames h fs dir d → (∀ j, h.faults (partPlace d stem j) = .none) → (∀ j, fs (partPlace d stem j) ≠ some .dir) →
    ∃ fs', writeParts h c image i bs fs = (.ok (), fs') := by
  intro bs
  induction bs with
  | nil => intro i fs _ _ _; exact ⟨fs, rfl⟩
  | cons b bs ih =>
    intro i fs hd hf hdir
    have hsd : SameDirs fs (fs.set (d ++ [partFile stem (i + 1)]) (.file b)) :=
      (partsChange_set (places := fun _ => d ++ [partFile stem (i + 1)]) (hdir i) ⟨0, rfl⟩).sameDirs
    obtain ⟨fs', hw⟩ := ih (i + 1) (prefixNames_sameDirs hd hsd) hf (fun j hj => hdir j ((hsd _).2 hj))
    refine ⟨fs', ?_⟩
    simp only [writeParts, hb.names, writeFile_append hd (partFile_name hb.ok (i + 1))]
    rw [if_neg (show fs (d ++ [partFile stem (i + 1)]) ≠ some .dir from hdir i)]
    have := hf i
    unfold partPlace at this
    rw [this]
    exact hw

/-! ## The encoder's loop -/

/-- What the copier delivers does not depend on the parts. -/
def Stable (h : Host) (c : Ciso) (image : Str) (copy : HostFs → BufCopier) (m : SecMap) (fs : HostFs) : Prop :=
  ∀ fs2, PartsChange (fun i => placeOf h (c.partName image i)) fs fs2 → ∀ k,
    readSector (copy fs2) m k 2048 = readSector (copy fs) m k 2048

theorem encodeLoop_ok {copy : HostFs → BufCopier} {m : SecMap} {fs0 : HostFs} (hst : Stable h c image copy m fs0) :
    ∀ (n : Nat) (secs : List Bytes) {fs fs' : HostFs},
    PartsChange (fun i => placeOf h (c.partName image i)) fs0 fs →
    encodeLoop h c image copy m n secs fs = (.ok (), fs') →
    ∃ rest, rest.length = n ∧
      (∀ k x, rest[k]? = some x → readSector (copy fs0) m (secs.length + k) 2048 = .ok x) ∧
      ∃ fs1, PartsChange (fun i => placeOf h (c.partName image i)) fs fs1 ∧
        (∀ q, (∀ k, secs.length ≤ k → k < secs.length + n → ∀ fa fb,
            writeParts h c image 0 (c.partial_ (secs.length + n) ((secs ++ rest).take k)) fa = (.ok (), fb) →
            PartsChange (fun i => placeOf h (c.partName image i)) fs0 fa → fb q = fa q) → fs1 q = fs q) ∧
        writeParts h c image 0 (c.final (secs.length + n) (secs ++ rest)) fs1 = (.ok (), fs') := by
  intro n
  induction n with
  | zero =>
    intro secs fs fs' hch hw
    refine ⟨[], rfl, by simp, fs, .refl _ _, fun _ _ => rfl, ?_⟩
    rw [List.append_nil]
    exact hw
  | succ n ih =>
    intro secs fs fs' hch hw
    simp only [encodeLoop] at hw
    rcases hx : writeParts h c image 0 (c.partial_ (secs.length + n + 1) secs) fs with ⟨r1, fs1⟩
    have h1 := writeParts_changes _ _ hx
    rw [hx] at hw
    cases r1 with
    | ok u =>
      simp only [hst _ (hch.trans h1)] at hw
      cases hr : readSector (copy fs0) m secs.length 2048 with
      | ok sec =>
        rw [hr] at hw
        simp only at hw
        obtain ⟨rest, k1, k2, fs2, k3, k4, k5⟩ := ih (secs ++ [sec]) (hch.trans h1) hw
        have e1 : (secs ++ [sec]).length + n = secs.length + (n + 1) := by simp; omega
        have e2 : secs ++ [sec] ++ rest = secs ++ (sec :: rest) := by simp
        rw [e1, e2] at k5
        refine ⟨sec :: rest, by simp [k1], ?_, fs2, h1.trans k3, ?_, k5⟩
        · intro k x hk
          cases k with
          | zero => simp at hk; subst hk; exact hr
          | succ k =>
            rw [List.getElem?_cons_succ] at hk
            have := k2 k x hk
            simpa [Nat.add_assoc, Nat.add_comm 1 k] using this
        · intro q hq
          rw [k4 q, hq secs.length (Nat.le_refl _) (by omega) fs fs1 (by simpa [Nat.add_assoc] using hx) hch]
          intro k hk1 hk2 fa fb hfa hpa
          rw [e1, e2] at hfa
          exact hq k (by simp at hk1; omega) (by simp at hk2; omega) fa fb hfa hpa
      | err e => rw [hr] at hw; cases hw
      | panic => rw [hr] at hw; cases hw
      | hang => rw [hr] at hw; cases hw
    | err e => cases hw
    | panic => cases hw
    | hang => cases hw

/-- Everything can be encoded if nothing fails. -/
theorem encodeLoop_succeeds (hb : Beside h c image dir stem d) {copy : HostFs → BufCopier} {m : SecMap} {fs0 : HostFs}
    (hst : Stable h c image copy m fs0) (hd : PrefixNames h fs0 dir d) (hf : ∀ j, h.faults (partPlace d stem j) = .none)
    (hdir : ∀ j, fs0 (partPlace d stem j) ≠ some .dir) :
    ∀ (n : Nat) (secs : List Bytes) {fs : HostFs}, PartsChange (fun i => placeOf h (c.partName image i)) fs0 fs →
    (∀ k, secs.length ≤ k → k < secs.length + n → ∃ x, readSector (copy fs0) m k 2048 = .ok x) →
    ∃ fs', encodeLoop h c image copy m n secs fs = (.ok (), fs') := by
  have go : ∀ {fs : HostFs} (bs : List Bytes), PartsChange (fun i => placeOf h (c.partName image i)) fs0 fs →
      ∃ fs', writeParts h c image 0 bs fs = (.ok (), fs') := fun bs hch =>
    writeParts_succeeds hb bs 0 (prefixNames_sameDirs hd hch.sameDirs) hf (fun j hj => hdir j ((hch.sameDirs _).2 hj))
  intro n
  induction n with
  | zero => intro secs fs hch _; exact go _ hch
  | succ n ih =>
    intro secs fs hch hr
    obtain ⟨fs1, h1⟩ := go (c.partial_ (secs.length + n + 1) secs) hch
    have hch1 := hch.trans (writeParts_changes _ _ h1)
    obtain ⟨x, hx⟩ := hr secs.length (Nat.le_refl _) (by omega)
    simp only [encodeLoop, h1, hst _ hch1, hx]
    refine ih _ hch1 ?_
    intro k hk1 hk2
    simp at hk1 hk2
    exact hr k (by omega) (by omega)

theorem view_rest {copy : BufCopier} {m : SecMap} {rest : List Bytes}
    (hr : ∀ k x, rest[k]? = some x → readSector copy m k 2048 = .ok x) : ∀ n, n ≤ rest.length →
    viewBytes copy m n = .ok (rest.take n).flatten := by
  intro n
  induction n with
  | zero => intro _; rfl
  | succ n ih =>
    intro hn
    have hx : rest[n]? = some rest[n] := List.getElem?_eq_getElem (by omega)
    simp only [viewBytes, ih (by omega), hr n _ hx, Res.ok_bind]
    congr 1
    rw [List.take_succ, hx, List.flatten_append]
    simp only [Option.toList_some, List.flatten_cons, List.flatten_nil, List.append_nil]

theorem flatten_sectors {rest : List Bytes} (hl : ∀ s ∈ rest, s.length = 2048) :
    rest.flatten.length = 2048 * rest.length ∧
    ∀ k x, rest[k]? = some x → slice rest.flatten (2048 * k) 2048 = x := by
  induction rest with
  | nil => exact ⟨rfl, by simp⟩
  | cons s rest ih =>
    obtain ⟨h1, h2⟩ := ih (fun x hx => hl x (by simp [hx]))
    have hs := hl s (by simp)
    constructor
    · simp only [List.flatten_cons, List.length_append, h1, hs, List.length_cons]; omega
    · intro k x hk
      cases k with
      | zero =>
        simp at hk
        subst hk
        simp only [slice, List.flatten_cons, Nat.mul_zero, List.drop_zero]
        rw [← hs, List.take_left]
      | succ k =>
        rw [List.getElem?_cons_succ] at hk
        rw [← h2 k x hk]
        simp only [slice, List.flatten_cons]
        rw [List.drop_append, List.drop_eq_nil_of_le (by omega), List.nil_append, hs,
          show 2048 * (k + 1) - 2048 = 2048 * k by omega]

theorem sectorsOf_flatten {rest : List Bytes} (hl : ∀ s ∈ rest, s.length = 2048) : sectorsOf rest.flatten = rest := by
  obtain ⟨h1, h2⟩ := flatten_sectors hl
  unfold sectorsOf
  rw [h1, Nat.mul_div_cancel_left _ (by decide)]
  apply List.ext_getElem (by simp)
  intro k hk1 hk2
  rw [List.getElem_map, List.getElem_range]
  exact h2 k _ (List.getElem?_eq_getElem hk2)

theorem sectorsOf_mem {img : Bytes} {s : Bytes} (hs : s ∈ sectorsOf img) : s.length = 2048 := by
  unfold sectorsOf at hs
  obtain ⟨k, hk, rfl⟩ := List.mem_map.1 hs
  rw [List.mem_range] at hk
  exact slice_length _ _ _ (by omega)

theorem sectorsOf_whole {img : Bytes} (hm : img.length % 2048 = 0) : (sectorsOf img).flatten = img := by
  have key : ∀ n, 2048 * n ≤ img.length →
      ((List.range n).map (fun k => slice img (2048 * k) 2048)).flatten = img.take (2048 * n) := by
    intro n
    induction n with
    | zero => intro _; rfl
    | succ n ih =>
      intro hn
      rw [List.range_succ, List.map_append, List.flatten_append, ih (by omega)]
      simp only [List.map_cons, List.map_nil, List.flatten_cons, List.flatten_nil, List.append_nil]
      rw [show 2048 * (n + 1) = 2048 * n + 2048 by omega, List.take_add]
      rfl
  unfold sectorsOf
  rw [key _ (by omega)]
  exact List.take_of_length_le (by omega)

/-- Copiers that leave the buffer as long as it is. -/
def KeepsLength (copy : BufCopier) : Prop :=
  ∀ p dest off size n b, copy p dest off 0 size = .ok (n, b) → size = dest.length → b.length = dest.length

theorem readSector_length {copy : BufCopier} (hk : KeepsLength copy) {m : SecMap} {k : Nat} {x : Bytes}
    (hr : readSector copy m k 2048 = .ok x) : x.length = 2048 := by
  unfold readSector at hr
  split at hr
  · cases hr; exact List.length_replicate
  · split at hr
    · next hl => cases hr; exact hl
    · cases hr
  · obtain ⟨⟨n, b⟩, h1, h2⟩ := Res.bind_eq_ok.1 hr
    simp only at h2
    split at h2
    · cases h2
      have := hk _ _ _ _ _ _ h1 List.length_replicate.symm
      rw [this]
      exact List.length_replicate
    · cases h2

theorem stdBufCopy_keeps (read : Path → (off n : Nat) → Res Bytes) : KeepsLength (stdBufCopy read) := by
  intro p dest off size n b hc hs
  subst hs
  unfold stdBufCopy at hc
  rw [if_neg (by omega)] at hc
  simp only [Nat.sub_zero, Nat.min_self] at hc
  obtain ⟨got, h1, h2⟩ := Res.bind_eq_ok.1 hc
  split at h2
  · cases h2
  · next hg =>
    simp only [Res.ok.injEq, Prod.mk.injEq] at h2
    rw [← h2.2]
    simp only [slice, List.length_append, List.length_take, List.length_drop, List.length_replicate, List.take_zero,
      List.length_nil]
    omega

theorem memWriteChunks_length : ∀ (cs : List Bytes) (off : Nat) {dest b : Bytes}, memWriteChunks off cs dest = .ok b →
    b.length = dest.length := by
  intro cs
  induction cs with
  | nil => intro off dest b hb; cases hb; rfl
  | cons c cs ih =>
    intro off dest b hb
    obtain ⟨x, h1, h2⟩ := Res.bind_eq_ok.1 hb
    rw [ih _ h2]
    unfold memWrite at h1
    split at h1
    · cases h1
    · next hn =>
      cases h1
      simp only [List.length_append, List.length_take, List.length_drop]
      omega

theorem imgBufCopy_keeps (copier : Copier) (fs : ImgFs) : KeepsLength (imgBufCopy copier fs) := by
  intro p dest off size n b hc _
  unfold imgBufCopy at hc
  obtain ⟨x, h1, h2⟩ := Res.bind_eq_ok.1 hc
  obtain ⟨y, h3, h4⟩ := Res.bind_eq_ok.1 h2
  cases h4
  exact memWriteChunks_length _ _ h1

/-- A successful encoding stores the parts of the image that the sectors make, and changes nothing else. -/
theorem encode_stored (hc : CisoWorks c) (hb : Beside h c image dir stem d) {copy : HostFs → BufCopier} {m : SecMap}
    {fs fs' : HostFs} (hd : PrefixNames h fs dir d) (hk : KeepsLength (copy fs)) (hst : Stable h c image copy m fs) {n : Nat}
    (hw : encodeLoop h c image copy m n [] fs = (.ok (), fs')) :
    ∃ img, viewBytes (copy fs) m n = .ok img ∧ img.length = 2048 * n ∧
      (∀ i b, (partsOf c img)[i]? = some b → fs' (partPlace d stem i) = some (.file b)) ∧
      ∀ q, (∀ i, i < (partsOf c img).length → q ≠ partPlace d stem i) → fs' q = fs q := by
  obtain ⟨rest, k1, k2, fs1, k3, k4, k5⟩ := encodeLoop_ok hst n [] (.refl _ _) hw
  simp only [List.length_nil, Nat.zero_add, List.nil_append] at k2 k4 k5
  have hlen : ∀ s ∈ rest, s.length = 2048 := by
    intro s hs
    obtain ⟨k, hk', rfl⟩ := List.mem_iff_getElem.1 hs
    exact readSector_length hk (k2 k _ (List.getElem?_eq_getElem hk'))
  have hv := view_rest k2 n (by omega)
  rw [← k1, List.take_length, k1] at hv
  have hp : partsOf c rest.flatten = c.final n rest := by
    unfold partsOf
    rw [sectorsOf_flatten hlen, k1]
  refine ⟨rest.flatten, hv, by rw [(flatten_sectors hlen).1, k1], ?_⟩
  rw [hp]
  obtain ⟨j1, j2⟩ := writeParts_ok hb _ 0 (prefixNames_sameDirs hd k3.sameDirs) k5
  refine ⟨fun i b hi => by have := j1 i b hi; rwa [Nat.zero_add] at this, ?_⟩
  intro q hq
  rw [j2 q (fun j hj => by rw [Nat.zero_add]; exact hq j hj)]
  refine k4 q ?_
  intro k _ hk2 fa fb hfa hpa
  refine (writeParts_ok hb _ 0 (prefixNames_sameDirs hd hpa.sameDirs) hfa).2 q ?_
  intro j hj
  rw [Nat.zero_add]
  refine hq j ?_
  have := (hc rest hlen).2.2 k
  rw [k1] at this
  omega

/-! ## Opening the parts -/

theorem stdWithExtension_dot {s e : Str} (ext : Str) (hs : s ≠ []) (he : '.' ∉ e) (hne : e ≠ []) :
    stdWithExtension (s ++ '.' :: e) ext = if ext = [] then s else s ++ '.' :: ext := by
  unfold stdWithExtension
  rw [splitExt_dot hs he hne]

theorem collectParts_eq {fs : HostFs} (hs : StemOk stem) (hd : PrefixNames h fs dir d) {bs : List Bytes} :
    ∀ (k : Nat), k ≤ bs.length → (∀ j b, bs[j]? = some b → fs (partPlace d stem j) = some (.file b)) →
    fs (partPlace d stem bs.length) = none → ∀ fuel, k < fuel →
    collectParts h fs (dir ++ (stem ++ '.' :: ['1'])) fuel (bs.length - k + 1) = .ok (bs.drop (bs.length - k)) := by
  have hn : HostName (stem ++ '.' :: ['1']) := dotted_name hs (by decide) (by decide) (by decide)
  have he : ∀ i, pathWithExtension (dir ++ (stem ++ '.' :: ['1'])) (partExt i) = dir ++ partFile stem i := by
    intro i
    rw [pathWithExtension_append _ hd.1 hn, stdWithExtension_dot _ hs.1 (by decide) (by decide), if_neg]
    · rfl
    · simp [partExt]
  intro k
  induction k with
  | zero =>
    intro _ h1 h2 fuel hf
    obtain ⟨f, rfl⟩ : ∃ f, fuel = f + 1 := ⟨fuel - 1, by omega⟩
    rw [Nat.sub_zero]
    simp only [collectParts, he, stat_append hd (partFile_name hs _)]
    unfold partPlace at h2
    rw [h2]
    simp
  | succ k ih =>
    intro hk h1 h2 fuel hf
    obtain ⟨f, rfl⟩ : ∃ f, fuel = f + 1 := ⟨fuel - 1, by omega⟩
    have hi : bs.length - (k + 1) < bs.length := by omega
    have hx := h1 _ _ (List.getElem?_eq_getElem hi)
    unfold partPlace at hx
    simp only [collectParts, he, stat_append hd (partFile_name hs _), hx, Option.map_some]
    have := ih (by omega) h1 h2 f (by omega)
    rw [show bs.length - k = bs.length - (k + 1) + 1 by omega] at this
    rw [this]
    simp only [Res.ok_bind, Res.pure_eq]
    rw [List.drop_eq_getElem_cons hi]

theorem collectParts_dir {fs : HostFs} (hs : StemOk stem) (hd : PrefixNames h fs dir d) {n : Nat} :
    ∀ (k : Nat), k ≤ n → (∀ j, j < n → ∃ b, fs (partPlace d stem j) = some (.file b)) →
    fs (partPlace d stem n) = some .dir → ∀ fuel, k < fuel →
    collectParts h fs (dir ++ (stem ++ '.' :: ['1'])) fuel (n - k + 1) = .err .io := by
  have hn : HostName (stem ++ '.' :: ['1']) := dotted_name hs (by decide) (by decide) (by decide)
  have he : ∀ i, pathWithExtension (dir ++ (stem ++ '.' :: ['1'])) (partExt i) = dir ++ partFile stem i := by
    intro i
    rw [pathWithExtension_append _ hd.1 hn, stdWithExtension_dot _ hs.1 (by decide) (by decide), if_neg]
    · rfl
    · simp [partExt]
  intro k
  induction k with
  | zero =>
    intro _ h1 h2 fuel hf
    obtain ⟨f, rfl⟩ : ∃ f, fuel = f + 1 := ⟨fuel - 1, by omega⟩
    rw [Nat.sub_zero]
    unfold partPlace at h2
    simp only [collectParts, he, stat_append hd (partFile_name hs _), h2, Option.map_some]
  | succ k ih =>
    intro hk h1 h2 fuel hf
    obtain ⟨f, rfl⟩ : ∃ f, fuel = f + 1 := ⟨fuel - 1, by omega⟩
    obtain ⟨b, hx⟩ := h1 (n - (k + 1)) (by omega)
    unfold partPlace at hx
    simp only [collectParts, he, stat_append hd (partFile_name hs _), hx, Option.map_some]
    have := ih (by omega) h1 h2 f (by omega)
    rw [show n - k = n - (k + 1) + 1 by omega] at this
    rw [this]
    rfl

/-- If the part after the last is a directory, nothing is opened. -/
theorem openPath_dir {fs : HostFs} (hs : StemOk stem) (hd : PrefixNames h fs dir d) {n : Nat}
    (h1 : ∀ j, j < n → ∃ b, fs (partPlace d stem j) = some (.file b)) (h2 : fs (partPlace d stem n) = some .dir)
    {fuel : Nat} (hf : n < fuel) : openPath h c fuel fs (dir ++ partFile stem 1) = .err .io := by
  have hn1 : HostName (stem ++ '.' :: ['1']) := dotted_name hs (by decide) (by decide) (by decide)
  have e1 : partFile stem 1 = (stem ++ '.' :: ['1']) ++ '.' :: ['c', 's', 'o'] := by
    simp [partFile, show Nat.toDigits 10 1 = ['1'] by decide]
  have hn : HostName ((stem ++ '.' :: ['1']) ++ '.' :: ['c', 's', 'o']) := by rw [← e1]; exact partFile_name hs 1
  unfold openPath
  rw [e1, pathExtension_append hd.1 hn, splitExt_dot hn1.1 (by decide) (by decide), if_pos rfl]
  simp only
  rw [pathWithExtension_append _ hd.1 hn, stdWithExtension_dot _ hn1.1 (by decide) (by decide), if_pos rfl,
    pathExtension_append hd.1 hn1, splitExt_dot hs.1 (by decide) (by decide), if_pos rfl]
  have := collectParts_dir (h := h) hs hd n (Nat.le_refl _) h1 h2 fuel hf
  rw [Nat.sub_self, Nat.zero_add] at this
  rw [this]
  rfl

/-- The first part opens as the image. -/
theorem openPath_parts {fs : HostFs} (hs : StemOk stem) (hd : PrefixNames h fs dir d) {bs : List Bytes} (hne : bs ≠ [])
    (h1 : ∀ j b, bs[j]? = some b → fs (partPlace d stem j) = some (.file b))
    (h2 : fs (partPlace d stem bs.length) = none) {fuel : Nat} (hf : bs.length < fuel) :
    openPath h c fuel fs (dir ++ partFile stem 1) = c.openParts bs := by
  have hn1 : HostName (stem ++ '.' :: ['1']) := dotted_name hs (by decide) (by decide) (by decide)
  have e1 : partFile stem 1 = (stem ++ '.' :: ['1']) ++ '.' :: ['c', 's', 'o'] := by
    simp [partFile, show Nat.toDigits 10 1 = ['1'] by decide]
  have hn : HostName ((stem ++ '.' :: ['1']) ++ '.' :: ['c', 's', 'o']) := by rw [← e1]; exact partFile_name hs 1
  unfold openPath
  rw [e1, pathExtension_append hd.1 hn, splitExt_dot hn1.1 (by decide) (by decide), if_pos rfl]
  simp only
  rw [pathWithExtension_append _ hd.1 hn, stdWithExtension_dot _ hn1.1 (by decide) (by decide), if_pos rfl,
    pathExtension_append hd.1 hn1, splitExt_dot hs.1 (by decide) (by decide), if_pos rfl]
  have := collectParts_eq (h := h) hs hd bs.length (Nat.le_refl _) h1 h2 fuel hf
  rw [Nat.sub_self, Nat.zero_add, List.drop_zero] at this
  rw [this, Res.ok_bind, if_neg hne]

/-! ## Directories -/

theorem std_linear_packs {r : DirReader} {fs : HostFs} {src : HostPath} {fuel : Nat} {s : PackState SecMap}
    (hl : createImage (linearEnv (stdFs r fs src).readDir (stdFs r fs src).pathToString) fuel ⟨[], []⟩ = (.ok (), s)) :
    ∃ s', createImage (fileEnv (stdFs r fs src) (fun _ => none)) fuel ⟨⟨[], []⟩, []⟩ = (.ok (), s') := by
  have hres : (createP (stdFs r fs src).readDir (stdFs r fs src).pathToString fuel).res = .ok () := (create_each hl).1
  refine (file_create (stdFs r fs src) fuel []).1 ⟨hres, ?_⟩
  intro o ho
  cases o with
  | report p => trivial
  | write off d => trivial
  | copy p out n =>
    obtain ⟨p', e, k1, k2, k3, k4⟩ := createP_fromSource hres _ ho
    subst k3 k4
    rcases std_entry_host k1 with ⟨hx, _⟩ | ⟨_, data, hx, _⟩
    · rw [k2] at hx; cases hx
    · refine ⟨((data.drop 0).take e.len).length, ?_⟩
      show (stdCopy r fs src (p' ++ [e.name]) 0 e.len).2 = _
      unfold stdCopy
      rw [hx]

theorem dir_stable {t : Tool} {r : DirReader} {most : Path → (off n : Nat) → Nat} {fs : HostFs} {src : HostPath}
    (hb : Beside h c image dir stem d) (hd : PrefixNames h fs dir d) (hno : NoPartInSource fs src d stem)
    {s : PackState SecMap}
    (hl : createImage (linearEnv (stdFs r fs src).readDir (stdFs r fs src).pathToString) t.fuel ⟨[], []⟩ = (.ok (), s)) :
    Stable h c image (fun fs => stdBufCopy (hostRead most fs src)) s.dev fs := by
  intro fs2 hch k
  obtain ⟨m, log⟩ := s
  simp only
  unfold readSector
  cases hm : m.get k with
  | none => rfl
  | some b =>
    cases b with
    | raw x => rfl
    | file p i =>
      obtain ⟨q, e, he, hdir, rfl, _⟩ := linear_files hl hm
      rcases std_entry_host he with ⟨hx, _⟩ | ⟨_, data, hx, _⟩
      · rw [hdir] at hx; cases hx
      · have hsame : fs2 (src ++ (q ++ [e.name])) = fs (src ++ (q ++ [e.name])) := by
          rcases hch (src ++ (q ++ [e.name])) with k1 | ⟨_, _, i, k1⟩
          · exact k1
          · simp only [hb.place hd] at k1
            rw [k1] at hx
            exact absurd (show src <+: partPlace d stem i from k1 ▸ List.prefix_append _ _) (hno i data hx)
        have hr : ∀ off n, hostRead most fs2 src (q ++ [e.name]) off n = hostRead most fs src (q ++ [e.name]) off n := by
          intro off n
          unfold hostRead
          rw [hsame]
        simp only [stdBufCopy, hr]

theorem hostRead_whole {most : Path → (off n : Nat) → Nat} (hm : WholeReads most) {r : DirReader} {fs : HostFs}
    {src : HostPath} : ReadsWhole (stdFs r fs src).readDir (stdContent fs src) (hostRead most fs src) := by
  intro p e he hd off n
  rcases std_entry_host he with ⟨hx, _⟩ | ⟨_, data, hx, _⟩
  · rw [hd] at hx; cases hx
  · unfold hostRead stdContent
    rw [hx]
    simp only [Res.ok.injEq]
    apply List.take_of_length_le
    have := hm (p ++ [e.name]) off n
    simp only [slice, List.length_take]
    omega

/-- A directory that was compressed, and what the parts hold. -/
theorem compressDir_ok {t : Tool} {r : DirReader} {most : Path → (off n : Nat) → Nat} {fs fs' : HostFs} {src : HostPath}
    (hs : ∀ b, (r.split b).flatten = b) (hm : WholeReads most) (hc : CisoWorks c)
    (hb : Beside h c image dir stem d) (hd : PrefixNames h fs dir d) (hno : NoPartInSource fs src d stem)
    (hw : compressDir h t r most c fs src image = (.ok (), fs')) :
    ∃ img, HostPacksTo t r fs src img ∧ img.length % 2048 = 0 ∧ StoredParts fs' d stem (partsOf c img) ∧
      ∀ q, (∀ i, i < (partsOf c img).length → q ≠ partPlace d stem i) → fs' q = fs q := by
  unfold compressDir at hw
  split at hw
  · next s hl =>
    obtain ⟨s', hp⟩ := std_linear_packs hl
    obtain ⟨m, k1, k2⟩ := Props.C39_compress_view_whole (std_bounded hs) (std_faithful hs) (hostRead_whole hm) hp
    rw [hl] at k1
    cases k1
    obtain ⟨img, j1, j2, j3, j4⟩ := encode_stored hc hb hd (stdBufCopy_keeps _) (dir_stable hb hd hno hl) hw
    simp only at j1
    rw [k2] at j1
    cases j1
    exact ⟨_, ⟨s', hp, rfl⟩, by omega, j3, j4⟩
  all_goals cases hw

theorem compressDir_succeeds {t : Tool} {r : DirReader} {most : Path → (off n : Nat) → Nat} {fs : HostFs} {src : HostPath}
    (hs : ∀ b, (r.split b).flatten = b) (hm : WholeReads most)
    (hb : Beside h c image dir stem d) (hd : PrefixNames h fs dir d) (hno : NoPartInSource fs src d stem)
    (hpw : PartsWritable h fs d stem) {img : Bytes} (hp : HostPacksTo t r fs src img) :
    ∃ fs', compressDir h t r most c fs src image = (.ok (), fs') := by
  obtain ⟨s', hp, rfl⟩ := hp
  obtain ⟨m, k1, k2, k3⟩ := Props.C39_compress_view (std_bounded hs) (std_faithful hs) (hostRead_whole hm) hp
  unfold compressDir
  rw [k1]
  simp only
  refine encodeLoop_succeeds hb (dir_stable (t := t) hb hd hno k1) hd (fun j => (hpw j).1) (fun j => (hpw j).2) _ []
    (.refl _ _) ?_
  intro k _ hk
  exact ⟨_, k3 k (by simp at hk; omega)⟩

/-! ## Images -/

theorem image_stable {fs : HostFs} {src : HostPath} {img : Bytes} {base : Nat} {ifs : ImgFs} {m : SecMap}
    (hb : Beside h c image dir stem d) (hd : PrefixNames h fs dir d) (hno : NoPartInSource fs src d stem)
    (hsrc : fs src = some (.file img)) :
    Stable h c image (fun fs => imgBufCopy (defaultCopier (offsetDev (fileDev (imageNow fs src)) base)) ifs) m fs := by
  intro fs2 hch k
  have hsame : fs2 src = fs src := by
    rcases hch src with k1 | ⟨_, _, i, k1⟩
    · exact k1
    · simp only [hb.place hd] at k1
      rw [k1] at hsrc
      exact absurd (k1 ▸ List.prefix_refl _) (hno i img hsrc)
  have : imageNow fs2 src = imageNow fs src := by unfold imageNow; rw [hsame]
  simp only [this]

theorem offset_listed {dev : Dev} {base : Nat} (ho : offsetNew dev = .ok base) : base ∈ xdvdOffsets := by
  have : ∀ l, offsetNewLoop dev l = .ok base → base ∈ l := by
    intro l
    induction l with
    | nil => intro hl; cases hl
    | cons o os ih =>
      intro hl
      unfold offsetNewLoop at hl
      split at hl
      · cases hl; exact List.mem_cons_self
      · exact List.mem_cons_of_mem _ (ih hl)
      · cases hl
      · cases hl
  exact this _ ho

theorem offsetDev_whole {img : Bytes} (hl : img.length % 2048 = 0) {base : Nat} (hb : base % 2048 = 0) :
    WholeSectors (offsetDev (fileDev img) base) := by
  intro off n b ho hr
  simp only [offsetDev, offsetRead] at hr ⊢
  split at hr
  · next hlt =>
    rw [if_pos hlt]
    exact fileDev_whole hl (off + base) n b (by omega) hr
  · cases hr

end Xdvdfs
