import Verif.Spec.Host

/-!
# Specification vocabulary: parts of a tree on the host
-/

namespace Xdvdfs.Spec

/-- Between `fs` and `fs'` nothing has changed but this: directories of the tree and directories on the way to `dest`
that did not exist have been created, and files of the tree have been given a part of their content, from its
beginning. -/
def PartsOfTree (h : Host) (dest : Str) (readDir : Path → Res (List FileEntry)) (content : Path → Bytes)
    (fs fs' : HostFs) : Prop :=
  ∀ q, fs' q = fs q ∨
    (fs q = none ∧ fs' q = some .dir ∧ (OnTheWay h dest q ∨ ∃ p, DirOf readDir p ∧ q = placeOf h dest ++ p)) ∨
    (fs q ≠ some .dir ∧ ∃ p e b, EntryIn readDir p e ∧ e.isDir = false ∧ q = placeOf h dest ++ p ++ [e.name] ∧
      fs' q = some (.file b) ∧ b <+: content (p ++ [e.name]))

/-- Every entry of the tree is at `D`, with its kind and content; there may be more. -/
def HasTree (fs : HostFs) (D : HostPath) (readDir : Path → Res (List FileEntry)) (content : Path → Bytes) : Prop :=
  ∀ p e, EntryIn readDir p e →
    fs (D ++ p ++ [e.name]) = some (if e.isDir then .dir else .file (content (p ++ [e.name])))

/-- Nothing at `D` stands in the way of the tree: nothing exists where a directory is to be, and no directory where a
file is to be. -/
def RoomForTree (fs : HostFs) (D : HostPath) (readDir : Path → Res (List FileEntry)) : Prop :=
  ∀ p e, EntryIn readDir p e →
    if e.isDir then fs (D ++ p ++ [e.name]) = none else fs (D ++ p ++ [e.name]) ≠ some .dir

end Xdvdfs.Spec
