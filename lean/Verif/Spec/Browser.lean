import Verif.Model.Browser
import Verif.Spec.CliPaths
import Verif.Spec.CompressArgs
import Verif.Spec.WebUi

/-!
# What users expect of the browser version
-/

namespace Xdvdfs.Spec

open Xdvdfs

/-- The browser lists everything in a directory, and nothing else, in any order. -/
def ListsAll (b : Browser) (fs : HostFs) : Prop := ∀ d n, n ∈ b.names d ↔ fs (d ++ [n]) ≠ none

/-- The browser refuses nothing. -/
def Grants (b : Browser) : Prop :=
  (∀ p, b.noList p = false ∧ b.noRead p = false ∧ b.noCreate p = false ∧ b.noWrite p = false ∧ b.noClose p = false) ∧
  ∀ k, b.faults k = false

/-- The names in a directory, in the order of their code points. -/
def InOrder (fs : HostFs) (names : HostPath → List Str) : Prop :=
  ∀ d, (names d).Pairwise (fun a b => cmpStr a b = .lt) ∧ ∀ n, n ∈ names d ↔ fs (d ++ [n]) ≠ none

/-- A host that lists directories in the given order. -/
def listedAs (names : HostPath → List Str) : DirReader := ⟨names, fun _ => 0, fun _ => false, fun x => [x]⟩

/-- Everything below the directory is at a depth below `n`. -/
def Depth (fs : HostFs) (p : HostPath) (n : Nat) : Prop := ∀ q, fs (p ++ q) ≠ none → q.length < n

/-- A folder with nothing in it. -/
def EmptyFolder (fs : HostFs) (d : HostPath) : Prop := fs d = some .dir ∧ ∀ r, r ≠ [] → fs (d ++ r) = none

/-- No entry of the tree would be put where the file `src` is, and whatever is where an entry is put is of the same kind
as the entry. -/
def RoomIn (fs : HostFs) (src d : HostPath) (readDir : Path → Res (List FileEntry)) : Prop :=
  fs d = some .dir ∧ ∀ p e, EntryIn readDir p e → src ≠ d ++ p ++ [e.name] ∧
    match fs (d ++ p ++ [e.name]) with
    | none => True
    | some .dir => e.isDir = true
    | some (.file _) => e.isDir = false

/-- The paths of all entries of the tree, each once. -/
def AllEntries (readDir : Path → Res (List FileEntry)) (all : List Path) : Prop :=
  all.Nodup ∧ ∀ q, q ∈ all ↔ ∃ p e, EntryIn readDir p e ∧ q = p ++ [e.name]

/-- The tree has a file with nothing in it. -/
def HasEmptyFile (readDir : Path → Res (List FileEntry)) (content : Path → Bytes) : Prop :=
  ∃ p e, EntryIn readDir p e ∧ e.isDir = false ∧ content (p ++ [e.name]) = []

/-- The name of the file or folder at `p` is a name of the host, and `stem` is the name without its extension. -/
def NamedAs (p : HostPath) (stem : Str) : Prop := ∃ d name, p = d ++ [name] ∧ HostName name ∧ HasStem name stem

/-- Where the part `i` of an image is put: the parts are numbered from 1. -/
def partAt (d : HostPath) (stem : Str) (i : Nat) : HostPath := d ++ [partFile stem (i + 1)]

end Xdvdfs.Spec
