import Verif.Spec.Remap

/-!
# The order in which a host is walked, and who is first
-/

namespace Xdvdfs.Spec
open Xdvdfs

/-- `HostOrder readDir dirs all`: `all` are the entries found when the directories `dirs` are visited one after the other,
each with everything below it before the next: first the entries of a directory in the order of its listing, then what is
below its last subdirectory, and so on to its first. -/
inductive HostOrder (readDir : Path → Res (List FileEntry)) : List Path → List (Path × FileEntry) → Prop
  | done : HostOrder readDir [] []
  | dir {d : Path} {l : List FileEntry} {rest : List Path} {all : List (Path × FileEntry)} :
      readDir d = .ok l →
      HostOrder readDir (((l.filter (·.isDir)).map (fun e => d ++ [e.name])).reverse ++ rest) all →
      HostOrder readDir (d :: rest) (l.map (fun e => (d ++ [e.name], e)) ++ all)

/-- Of the entries `all`, in this order, the first that the rules map to `place` or below is the entry `e` at `path`, and
it is mapped to `target`. -/
def TakesFirst (G : GlobEngine) (rules : List Rule) (all : List (Path × FileEntry)) (place path : Path) (e : FileEntry)
    (target : Path) : Prop :=
  ∃ before after, all = before ++ (path, e) :: after ∧ MapsTo G rules path target ∧ place <+: target ∧
    ∀ y ∈ before, ∀ q, MapsTo G rules y.1 q → ¬ place <+: q

end Xdvdfs.Spec
