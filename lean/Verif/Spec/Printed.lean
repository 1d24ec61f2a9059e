import Verif.Model.InfoText
import Verif.Spec.Pack

/-!
# What can be told from printed text
-/

namespace Xdvdfs.Spec

open Xdvdfs

/-- A text that stays on one line. -/
def OneLine (s : Str) : Prop := '\n' ∉ s

/-- The attributes agree in the bits that have a meaning: read-only, hidden, system, directory, archive, normal. -/
def SameFlags (a b : UInt8) : Prop := a &&& 0xb7 = b &&& 0xb7

/-- Two descriptions of an entry say the same. -/
def SameEntry (i j : DirentInfo) : Prop :=
  i.name = j.name ∧ i.offset = j.offset ∧ i.left = j.left ∧ i.right = j.right ∧ i.sector = j.sector ∧ i.size = j.size ∧
    SameFlags i.attrs j.attrs

/-- Lists of descriptions that say the same, one by one. -/
inductive SameEntries : List DirentInfo → List DirentInfo → Prop
  | nil : SameEntries [] []
  | cons {i j : DirentInfo} {l m : List DirentInfo} : SameEntry i j → SameEntries l m → SameEntries (i :: l) (j :: m)

/-- Two results of `info` say the same. -/
inductive SameInfo : InfoOut → InfoOut → Prop
  | volume (valid : Bool) (filetime : UInt64) (sector size : Nat) :
      SameInfo (.volume valid filetime sector size) (.volume valid filetime sector size)
  | entries {l m : List DirentInfo} : SameEntries l m → SameInfo (.entries l) (.entries m)

/-- The names in a result of `info` have no line break. -/
def OneLineNames : InfoOut → Prop
  | .volume .. => True
  | .entries l => ∀ i ∈ l, OneLine i.name

/-- What a listing of the whole tree is expected to tell of an entry: the path of its directory, its name, and, for files,
the size. -/
def told (x : Str × DirEnt) : Str × Str × Option Nat :=
  (x.1, x.2.nameStr, if x.2.node.dirent.isDirectory then none else some x.2.node.dirent.data.size.toNat)

/-- What the recursive listing of the image finds. -/
def TreeOfImage (compressed : Bool) (dev : Dev) (fuel : Nat) (tree : List (Str × DirEnt)) : Prop :=
  ∃ d vol, openVolume compressed dev = .ok (d, vol) ∧ fileTree d vol.root fuel = .ok tree

/-- The names and paths in a listing are on one line, and the names are names: not empty, without a slash. -/
def PlainNames (tree : List (Str × DirEnt)) : Prop :=
  ∀ x ∈ tree, OneLine x.1 ∧ OneLine x.2.nameStr ∧ x.2.nameStr ≠ [] ∧ '/' ∉ x.2.nameStr

/-- The names in a source are names, on one line. -/
def PlainSource (S : Path → Res (List FileEntry)) : Prop :=
  ∀ p e, EntryIn S p e → OneLine e.name ∧ e.name ≠ [] ∧ '/' ∉ e.name

/-- In the source there is an entry `name` in the directory `p`: a directory (`none`), or a file of the size given. -/
def HasEntry (S : Path → Res (List FileEntry)) (p : Path) (name : Str) (size : Option Nat) : Prop :=
  ∃ e, EntryIn S p e ∧ e.name = name ∧ size = if e.isDir then none else some e.len

end Xdvdfs.Spec
