import Verif.Proof.Lookup
import Verif.Proof.Table

/-!
# C135: lookup and listing agree on images made by any tool
-/

namespace Xdvdfs.Props
open Xdvdfs Spec

/-- **C135** (names).  On any image, the entry that is found has the name that was looked for, ignoring ASCII case. -/
theorem C135_found_has_name {dev : Dev} {tab : Region} {name : Str} {fuel : Nat} {d : DirEnt}
    (h : findDirent dev tab name fuel = .ok d) : SameName name d.nameStr := findDirent_name h

/-- **C135** (partial: directories of at most 262140 bytes).  On any image, an entry that is found in a directory is in the
listing of the directory, if the directory can be listed.  Missing: larger directories, see `C135_found_is_listed_false`. -/
theorem C135_found_is_listed_partial {dev : Dev} {tab : Region} (hs : tab.size.toNat ≤ 262140) {name : Str} {fuel wf : Nat}
    {d : DirEnt} {l : List DirEnt} (h : findDirent dev tab name fuel = .ok d) (hl : walkDirentTree dev tab wf = .ok l) :
    d ∈ l := findDirent_listed hs h hl

/-- **C135** (search trees).  If the links of a directory form a search tree, the directory can be listed, the listing has
exactly the entries of the tree, and each of them is found by its name in any letter case. -/
theorem C135_listed_is_found {dev : Dev} {tab : Region} {l : List DirEnt} (h : Sorted dev tab l) :
    ∃ listed, listed.Perm l ∧ (∀ fuel, 2 * l.length < fuel → walkDirentTree dev tab fuel = .ok listed) ∧
      ∀ d ∈ listed, ∀ name, SameName name d.nameStr → ∀ fuel, l.length < fuel → findDirent dev tab name fuel = .ok d := by
  obtain ⟨l', p, e⟩ := sorted_listed h
  exact ⟨l', p, e, fun d hd name hn fuel hf => sorted_found h (p.mem_iff.1 hd) hn hf⟩

/-- **C135** (partial: missing children are marked with 0).  If the links of a directory form a search tree, a name that is
not listed is reported as missing.  Missing: the mark `0xffff`, see `C135_absent_false`. -/
theorem C135_absent_partial {dev : Dev} {tab : Region} {l : List DirEnt} (h : Sorted dev tab l) (hz : ZeroLinks l)
    {name : Str} (hn : ∀ d ∈ l, ¬ SameName name d.nameStr) {fuel : Nat} (hf : l.length < fuel) :
    findDirent dev tab name fuel = .err (if tab.size = 0 then .directoryEmpty else .doesNotExist) :=
  sorted_absent h hz hn hf

/-- **C135** (partial: directories of at most 262140 bytes; paths).  On any image that can be listed as a whole, what is found
under a path is in the listing, under this path ignoring ASCII case. -/
theorem C135_path_found_is_listed_partial {dev : Dev} {root : Region} {wf : Nat} {listed : List (Str × DirEnt)}
    (hl : fileTree dev root wf = .ok listed) (hs : EveryDir root listed (fun t => t.size.toNat ≤ 262140)) {q : Path}
    (hq : PlainPath q) {fuel : Nat} {d : DirEnt} (h : walkPath dev root (slashPath q) fuel = .ok d) :
    ∃ p, SamePath q (p ++ [d.nameStr]) ∧ (slashPath p, d) ∈ listed := by
  have hne : q ≠ [] := by
    rintro rfl
    simp [slashPath, walkPath] at h
  rw [walkPath_slash dev root fuel hne hq] at h
  simpa using walkSegments_listed hs.2 q root [] hs.1 ⟨wf, _, _, List.mem_singleton.2 rfl, hl⟩ h

/-- **C135** (search trees; paths).  If all directories of an image are search trees, and no name is empty or has a slash,
then everything that is listed is found under its path in any letter case. -/
theorem C135_path_listed_is_found {dev : Dev} {root : Region} {wf : Nat} {listed : List (Str × DirEnt)}
    (hl : fileTree dev root wf = .ok listed) (hs : EveryDir root listed (fun t => ∃ l, Sorted dev t l))
    (hn : ∀ x ∈ listed, x.2.nameStr ≠ [] ∧ '/' ∉ x.2.nameStr) {p q : Path} {d : DirEnt} (hd : (slashPath p, d) ∈ listed)
    (hq : PlainPath q) (hpq : SamePath q (p ++ [d.nameStr])) :
    ∃ n, ∀ fuel, n ≤ fuel → walkPath dev root (slashPath q) fuel = .ok d := by
  have hv : Visited dev wf listed ([], root) := ⟨wf, _, _, List.mem_singleton.2 rfl, hl⟩
  have hne : q ≠ [] := by
    rintro rfl
    have := congrArg List.length hpq
    simp at this
  rcases fileTreeLoop_below _ _ _ _ hl _ hd with h | ⟨P, t, p', h1, h2, h3⟩
  · simp at h
  · rw [List.mem_singleton] at h1
    obtain ⟨rfl, rfl⟩ := Prod.mk.inj h1
    have hp : PlainPath p := fun s hs => same_plain hpq hq s (by simp [hs])
    obtain rfl := slashPath_plain_inj hp (below_plain hn h3 [] hv) h2
    obtain ⟨n, e⟩ := below_found hs.2 h3 [] hs.1 hv q hpq
    exact ⟨n, fun fuel hf => by rw [walkPath_slash dev _ fuel hne hq]; exact e fuel hf⟩

/-- **C135** (partial: missing children are marked with 0; paths).  If all directories of an image are search trees of at most
262140 bytes, a path that is not in the listing is reported as missing. -/
theorem C135_path_absent_partial {dev : Dev} {root : Region} {wf : Nat} {listed : List (Str × DirEnt)}
    (hl : fileTree dev root wf = .ok listed)
    (hs : EveryDir root listed (fun t => t.size.toNat ≤ 262140 ∧ ∃ l, Sorted dev t l ∧ ZeroLinks l)) {q : Path}
    (hne : q ≠ []) (hq : PlainPath q) (hn : ∀ p d, (slashPath p, d) ∈ listed → ¬ SamePath q (p ++ [d.nameStr])) :
    ∃ n, ∀ fuel, n ≤ fuel → walkPath dev root (slashPath q) fuel = .err .doesNotExist ∨
      walkPath dev root (slashPath q) fuel = .err .directoryEmpty ∨
      walkPath dev root (slashPath q) fuel = .err .isNotDirectory := by
  have hv : Visited dev wf listed ([], root) := ⟨wf, _, _, List.mem_singleton.2 rfl, hl⟩
  obtain ⟨n, e⟩ := walkSegments_error (fun x hx t ht => (hs.2 x hx t ht).2) q root [] hne hs.1.2 hv
  refine ⟨n, fun fuel hf => ?_⟩
  rw [walkPath_slash dev root fuel hne hq]
  rcases e fuel hf with ⟨d, h⟩ | h
  · rw [← walkPath_slash dev root fuel hne hq] at h
    obtain ⟨p, h1, h2⟩ := C135_path_found_is_listed_partial hl
      ⟨hs.1.1, fun x hx t ht => (hs.2 x hx t ht).1⟩ hq h
    exact absurd h1 (hn p d h2)
  · exact h

/-! ## An image of another tool -/

/-- An entry with a name of one letter. -/
def oneEntry (left right : UInt16) (sector size : UInt32) (attrs : UInt8) (c : UInt8) : Bytes :=
  (DiskNode.ser ⟨left, right, ⟨⟨sector, size⟩, attrs, 1⟩⟩) ++ [c, 0xff]

/-- What is read from such an entry. -/
def oneDirEnt (left right : UInt16) (sector size : UInt32) (attrs : UInt8) (c : UInt8) (at_ : Nat) : DirEnt :=
  ⟨⟨left, right, ⟨⟨sector, size⟩, attrs, 1⟩⟩, [c], at_⟩

/-- A root directory that is a list rather than a balanced tree: `a`, then `B` (a directory with a file `x`), then `c`. -/
def chainImage : Bytes :=
  oneEntry 0 4 9 5 0x80 97 ++ (oneEntry 0 8 1 16 0x10 66 ++ (oneEntry 0 0 9 5 0x80 99 ++
    (List.replicate 2000 0xff ++ oneEntry 0 0 9 5 0x80 120)))

def chainRoot : List DirEnt :=
  [oneDirEnt 0 4 9 5 0x80 97 0, oneDirEnt 0 8 1 16 0x10 66 16, oneDirEnt 0 0 9 5 0x80 99 32]

def chainSub : List DirEnt := [oneDirEnt 0 0 9 5 0x80 120 2048]

set_option maxRecDepth 20000 in
theorem chain_entries :
    readDirent (fileDev chainImage) 0 = .ok (some (oneDirEnt 0 4 9 5 0x80 97 0)) ∧
    readDirent (fileDev chainImage) 16 = .ok (some (oneDirEnt 0 8 1 16 0x10 66 16)) ∧
    readDirent (fileDev chainImage) 32 = .ok (some (oneDirEnt 0 0 9 5 0x80 99 32)) ∧
    readDirent (fileDev chainImage) 2048 = .ok (some (oneDirEnt 0 0 9 5 0x80 120 2048)) := by decide +kernel

theorem chain_sorted : Sorted (fileDev chainImage) ⟨0, 48⟩ chainRoot := by
  obtain ⟨h1, h2, h3, _⟩ := chain_entries
  refine ⟨?_, by decide⟩
  exact .entry (l := []) ⟨by decide, h1⟩ .nothing (.entry (o := 16) (l := []) ⟨by decide, h2⟩ .nothing
    (.entry (o := 32) (l := []) (r := []) ⟨by decide, h3⟩ .nothing .nothing))

theorem chain_sub_sorted : Sorted (fileDev chainImage) ⟨1, 16⟩ chainSub := by
  obtain ⟨_, _, _, h4⟩ := chain_entries
  refine ⟨?_, by decide⟩
  exact .entry (l := []) (r := []) ⟨by decide, h4⟩ .nothing .nothing

/-- The hypotheses of `C135_listed_is_found` and `C135_absent_partial` hold for this directory: `C` finds the third entry,
and `q` is missing. -/
example : findDirent (fileDev chainImage) ⟨0, 48⟩ ['C'] 4 = .ok (oneDirEnt 0 0 9 5 0x80 99 32) ∧
    findDirent (fileDev chainImage) ⟨0, 48⟩ ['q'] 4 = .err .doesNotExist := by
  constructor
  · obtain ⟨l, p, _, h⟩ := C135_listed_is_found chain_sorted
    exact h _ (p.mem_iff.2 (by decide)) _ (by decide) _ (by decide)
  · exact C135_absent_partial chain_sorted (by unfold ZeroLinks; decide) (by decide) (by decide)

def chainListing : List (Str × DirEnt) :=
  [([], oneDirEnt 0 4 9 5 0x80 97 0), ([], oneDirEnt 0 8 1 16 0x10 66 16), ([], oneDirEnt 0 0 9 5 0x80 99 32),
    (['/', 'B'], oneDirEnt 0 0 9 5 0x80 120 2048)]

set_option maxRecDepth 20000 in
theorem chain_listed : fileTree (fileDev chainImage) ⟨0, 48⟩ 9 = .ok chainListing := by decide +kernel

theorem chain_every : EveryDir ⟨0, 48⟩ chainListing (fun t => t.size.toNat ≤ 262140 ∧
    ∃ l, Sorted (fileDev chainImage) t l ∧ ZeroLinks l) := by
  refine ⟨⟨by decide, _, chain_sorted, by unfold ZeroLinks; decide⟩, ?_⟩
  intro x hx t ht
  have : t = ⟨1, 16⟩ := by
    simp only [chainListing, List.mem_cons, List.not_mem_nil, or_false] at hx
    rcases hx with rfl | rfl | rfl | rfl
    · cases ht
    · exact (Option.some.inj ht).symm
    · cases ht
    · cases ht
  subst this
  exact ⟨by decide, _, chain_sub_sorted, by unfold ZeroLinks; decide⟩

/-- The hypotheses of the theorems about paths hold for this image: `/b/X` finds the file, `/b/y` is missing. -/
example : ∃ n, ∀ fuel, n ≤ fuel →
    walkPath (fileDev chainImage) ⟨0, 48⟩ (slashPath [['b'], ['X']]) fuel = .ok (oneDirEnt 0 0 9 5 0x80 120 2048) ∧
    ¬ ∃ d, walkPath (fileDev chainImage) ⟨0, 48⟩ (slashPath [['b'], ['y']]) fuel = .ok d := by
  obtain ⟨n, h1⟩ := C135_path_listed_is_found chain_listed
    ⟨chain_every.1.2.imp fun _ h => h.1, fun x hx t ht => (chain_every.2 x hx t ht).2.imp fun _ h => h.1⟩
    (by decide) (p := [['B']]) (d := oneDirEnt 0 0 9 5 0x80 120 2048) (q := [['b'], ['X']])
    (by decide) (by unfold PlainPath; decide) (by unfold SamePath; decide)
  refine ⟨n, fun fuel hf => ⟨h1 fuel hf, ?_⟩⟩
  rintro ⟨d, hd⟩
  obtain ⟨p, h2, h3⟩ := C135_path_found_is_listed_partial chain_listed
    ⟨chain_every.1.1, fun x hx t ht => (chain_every.2 x hx t ht).1⟩ (by unfold PlainPath; decide) hd
  have hne : ∀ x ∈ chainListing, ¬ SameName ['y'] x.2.nameStr := by decide
  have : SamePath ([['b']] ++ [['y']]) (p ++ [d.nameStr]) := h2
  rw [samePath_snoc] at this
  exact hne _ h3 this.2

/-! ## `0xffff` -/

/-- A directory with one entry, `b`, whose missing children are marked with `0xffff`. -/
def markedTable : Bytes := oneEntry 0xffff 0xffff 9 5 0x80 98

/-- **C135** is false in general: in a directory with the one entry `b`, whose missing children are marked with `0xffff` (which
the listing takes for missing), looking up `a` fails with an error other than `DoesNotExist`. -/
theorem C135_absent_false :
    Sorted (fileDev markedTable) ⟨0, 16⟩ [oneDirEnt 0xffff 0xffff 9 5 0x80 98 0] ∧
    ∀ fuel, 0 < fuel → findDirent (fileDev markedTable) ⟨0, 16⟩ ['a'] fuel = .err .sizeOutOfBounds := by
  have h : readDirent (fileDev markedTable) 0 = .ok (some (oneDirEnt 0xffff 0xffff 9 5 0x80 98 0)) := by decide +kernel
  refine ⟨⟨.entry (l := []) (r := []) ⟨by decide, h⟩ .nothing .nothing, by decide⟩, ?_⟩
  intro fuel hf
  have h1 : findDirent (fileDev markedTable) ⟨0, 16⟩ ['a'] 1 = .err .sizeOutOfBounds := by decide +kernel
  rw [findDirent_mono (by rw [h1]; simp) fuel hf, h1]

/-- A directory of 262156 bytes whose first entry, `b`, has the left link `0xffff`; at byte 262140 there is an entry `a`. -/
def farTable : Bytes :=
  oneEntry 0xffff 0 9 5 0x80 98 ++ (List.replicate 262124 0xff ++ oneEntry 0 0 9 5 0x80 97)

theorem holds_self (b : Bytes) : HoldsAt (fileDev b) 0 b := by
  intro o n hn
  rw [Nat.zero_add, fileDev_read, fileRead]
  by_cases h0 : n = 0
  · subst h0; rw [if_pos rfl]; simp [slice]
  · rw [if_neg h0, if_pos hn]

theorem far_first (n : Nat) :
    readDirent (fileDev (oneEntry 0xffff 0 9 5 0x80 98 ++ (List.replicate n 0xff ++ oneEntry 0 0 9 5 0x80 97))) 0 =
      .ok (some (oneDirEnt 0xffff 0 9 5 0x80 98 0)) := by
  have h1 := HoldsAt.mid (a := []) (x := oneEntry 0xffff 0 9 5 0x80 98) (b := List.replicate n 0xff ++
    oneEntry 0 0 9 5 0x80 97) (holds_self _)
  exact readDirent_ent (e := ⟨(oneDirEnt 0xffff 0 9 5 0x80 98 0).node, [98]⟩) h1 rfl (by decide) (by decide)

theorem far_last (n m : Nat) (h : m = 16 + n) :
    readDirent (fileDev (oneEntry 0xffff 0 9 5 0x80 98 ++ (List.replicate n 0xff ++ oneEntry 0 0 9 5 0x80 97))) m =
      .ok (some (oneDirEnt 0 0 9 5 0x80 97 m)) := by
  have h1 := HoldsAt.mid (a := oneEntry 0xffff 0 9 5 0x80 98 ++ List.replicate n 0xff)
    (x := oneEntry 0 0 9 5 0x80 97) (b := []) (by
      have := holds_self (oneEntry 0xffff 0 9 5 0x80 98 ++ (List.replicate n 0xff ++ oneEntry 0 0 9 5 0x80 97))
      rw [List.append_nil, List.append_assoc]; exact this)
  rw [List.length_append, List.length_replicate, show (oneEntry 0xffff 0 9 5 0x80 98).length = 16 from by decide,
    Nat.zero_add, ← h] at h1
  exact readDirent_ent (e := ⟨(oneDirEnt 0 0 9 5 0x80 97 0).node, [97]⟩) h1 rfl (by decide) (by decide)

theorem far_entries :
    readDirent (fileDev farTable) 0 = .ok (some (oneDirEnt 0xffff 0 9 5 0x80 98 0)) ∧
    readDirent (fileDev farTable) 262140 = .ok (some (oneDirEnt 0 0 9 5 0x80 97 262140)) := by
  unfold farTable
  exact ⟨far_first 262124, far_last 262124 262140 (by decide)⟩

theorem far_generic {dev : Dev} (h1 : readDirent dev 0 = .ok (some (oneDirEnt 0xffff 0 9 5 0x80 98 0)))
    (h2 : readDirent dev 262140 = .ok (some (oneDirEnt 0 0 9 5 0x80 97 262140))) :
    (∀ fuel, 1 < fuel → findDirent dev ⟨0, 262156⟩ ['a'] fuel = .ok (oneDirEnt 0 0 9 5 0x80 97 262140)) ∧
    ∀ fuel, 0 < fuel → walkDirentTree dev ⟨0, 262156⟩ fuel = .ok [oneDirEnt 0xffff 0 9 5 0x80 98 0] := by
  constructor
  · intro fuel hf
    obtain ⟨f, rfl⟩ : ∃ f, fuel = f + 1 + 1 := ⟨fuel - 2, by omega⟩
    have o1 : Region.offset ⟨0, 262156⟩ 0 = .ok 0 := by decide
    have o2 : Region.offset ⟨0, 262156⟩ (4 * (0xffff : UInt16).toNat) = .ok 262140 := by decide
    have c1 : cmpIgnoreCase ['a'] (oneDirEnt 0xffff 0 9 5 0x80 98 0).nameStr = .lt := by decide
    have c2 : cmpIgnoreCase ['a'] (oneDirEnt 0 0 9 5 0x80 97 262140).nameStr = .eq := by decide
    have l1 : (oneDirEnt 0xffff 0 9 5 0x80 98 0).node.left = 0xffff := rfl
    unfold findDirent
    rw [if_neg (by decide), o1]
    simp only [Res.ok_bind]
    rw [findLoop, h1]
    simp only [Res.ok_bind, Res.ofOption_some, c1, Res.pure_eq, l1]
    rw [if_neg (by decide), o2]
    simp only [Res.ok_bind]
    rw [findLoop, h2]
    simp only [Res.ok_bind, Res.ofOption_some, c2, Res.pure_eq]
  · intro fuel hf
    obtain ⟨f, rfl⟩ : ∃ f, fuel = f + 1 := ⟨fuel - 1, by omega⟩
    have o1 : Region.offset ⟨0, 262156⟩ 0 = .ok 0 := by decide
    have p1 : pushChildren (oneDirEnt 0xffff 0 9 5 0x80 98 0).node [] = [] := by decide
    unfold walkDirentTree
    rw [if_neg (by decide), walkLoop, o1]
    simp only [Res.ok_bind, h1, p1]
    cases f <;> rfl

/-- **C135** is false for directories of more than 262140 bytes: here `a` is found but not listed. -/
theorem C135_found_is_listed_false :
    (∀ fuel, 1 < fuel → findDirent (fileDev farTable) ⟨0, 262156⟩ ['a'] fuel = .ok (oneDirEnt 0 0 9 5 0x80 97 262140)) ∧
    ∀ fuel, 0 < fuel → walkDirentTree (fileDev farTable) ⟨0, 262156⟩ fuel = .ok [oneDirEnt 0xffff 0 9 5 0x80 98 0] :=
  far_generic far_entries.1 far_entries.2

end Xdvdfs.Props
