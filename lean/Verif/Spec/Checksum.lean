import Verif.Model.Read
import Verif.Spec.Pack

/-!
# Specification vocabulary: the contents of an image
-/

namespace Xdvdfs.Spec

/-- What is at a path. -/
inductive Content where
  | dir
  | file (data : Bytes)
  deriving DecidableEq

/-- The kind, and the size of a file. -/
def Content.shape : Content → Option Nat
  | .dir => none
  | .file b => some b.length

/-- The listing `tree` of the image at `dev` has an entry at `path` (written with slashes) with content
`c`. -/
def HasAt (dev : Dev) (tree : List (Str × DirEnt)) (path : Str) (c : Content) : Prop :=
  ∃ parent d, (parent, d) ∈ tree ∧ path = parent ++ '/' :: d.nameStr ∧
    match c with
    | .dir => d.node.dirent.isDirectory = true
    | .file b => d.node.dirent.isDirectory = false ∧ readDataAll dev d.node.dirent = .ok b

/-- The listing has at most one entry at each path. -/
def OnePerPath (tree : List (Str × DirEnt)) : Prop :=
  (tree.map (fun x => x.1 ++ '/' :: x.2.nameStr)).Nodup

/-- Every file of the listing can be read. -/
def Readable (dev : Dev) (tree : List (Str × DirEnt)) : Prop :=
  ∀ x ∈ tree, x.2.node.dirent.isDirectory = false → ∃ b, readDataAll dev x.2.node.dirent = .ok b

/-- Two sources hold the same tree: the same names and kinds in the same directories (in any order) and
the same contents of files. -/
def SameSource (rd rd' : Path → Res (List FileEntry)) (content content' : Path → Bytes) : Prop :=
  (∀ p n k, (∃ e, EntryIn rd p e ∧ e.name = n ∧ e.isDir = k) ↔ (∃ e, EntryIn rd' p e ∧ e.name = n ∧ e.isDir = k)) ∧
  ∀ p e, EntryIn rd p e → e.isDir = false → content (p ++ [e.name]) = content' (p ++ [e.name])

end Xdvdfs.Spec
