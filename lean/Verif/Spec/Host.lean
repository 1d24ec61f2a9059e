import Verif.Model.Host
import Verif.Spec.Pack

/-!
# Specification vocabulary: the host file system
-/

namespace Xdvdfs.Spec

/-- A name that can be given to a file on the host: non-empty, no slash, no NUL, and not one of the two
reserved names. -/
def HostName (s : Str) : Prop := s ≠ [] ∧ '/' ∉ s ∧ Char.ofNat 0 ∉ s ∧ s ≠ ['.'] ∧ s ≠ ['.', '.']

/-- Where a list of components leads from a directory. -/
def stepsFrom : HostPath → List Str → HostPath
  | cur, [] => cur
  | cur, c :: cs =>
    if c = ['.'] then stepsFrom cur cs
    else if c = ['.', '.'] then stepsFrom cur.dropLast cs
    else stepsFrom (cur ++ [c]) cs

/-- The place a path string names. -/
def placeOf (h : Host) (path : Str) : HostPath := stepsFrom (h.start path) (hostComps path)

/-- `q` is passed on the way to the place a path string names (the starting directory and the place
itself included). -/
def OnTheWay (h : Host) (path : Str) (q : HostPath) : Prop :=
  ∃ k, q = stepsFrom (h.start path) ((hostComps path).take k)

/-- Between `fs` and `fs'` nothing has changed outside the place named by `dest`, except that missing
directories on the way to it may have been created. -/
def ChangesOnlyInside (h : Host) (dest : Str) (fs fs' : HostFs) : Prop :=
  ∀ q, fs' q ≠ fs q → placeOf h dest <+: q ∨ (OnTheWay h dest q ∧ fs q = none ∧ fs' q = some .dir)

/-- Whatever exists is in a directory, and the root exists. -/
def WellFormedHost (fs : HostFs) : Prop :=
  fs [] = some .dir ∧ ∀ q c, fs (q ++ [c]) ≠ none → fs q = some .dir

/-- The place a path string names can be reached: the string contains no NUL and no `..`, the start exists, and what
exists on the way is a directory. -/
def ClearWay (h : Host) (dest : Str) (fs : HostFs) : Prop :=
  Char.ofNat 0 ∉ dest ∧ ['.', '.'] ∉ hostComps dest ∧ fs (h.start dest) = some .dir ∧
  ∀ q, OnTheWay h dest q → fs q = none ∨ fs q = some .dir

/-- The path string can be used to name a new directory: it contains no NUL and no `..`, what exists on
the way is a directory, the start exists, and nothing exists below the place it names. -/
def FreshDest (h : Host) (dest : Str) (fs : HostFs) : Prop :=
  Char.ofNat 0 ∉ dest ∧ ['.', '.'] ∉ hostComps dest ∧ fs (h.start dest) = some .dir ∧
  (∀ q, OnTheWay h dest q → fs q = none ∨ fs q = some .dir) ∧
  ∀ q, placeOf h dest <+: q → q ≠ placeOf h dest → fs q = none

/-- Below `D` there is exactly the tree of the source: every entry with its kind and content, and
nothing else. -/
def TreeAt (fs : HostFs) (D : HostPath) (readDir : Path → Res (List FileEntry)) (content : Path → Bytes) : Prop :=
  (∀ p e, EntryIn readDir p e → e.isDir = true → fs (D ++ p ++ [e.name]) = some .dir) ∧
  (∀ p e, EntryIn readDir p e → e.isDir = false →
    fs (D ++ p ++ [e.name]) = some (.file (content (p ++ [e.name])))) ∧
  ∀ q, q ≠ [] → fs (D ++ q) ≠ none → ∃ p e, EntryIn readDir p e ∧ q = p ++ [e.name]

end Xdvdfs.Spec
