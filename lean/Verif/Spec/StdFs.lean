import Verif.Model.StdFs
import Verif.Spec.Host

/-!
# What users expect of reading directories of the host
-/

namespace Xdvdfs.Spec

/-- The host is read correctly: listing a directory yields each thing in it exactly once, in whatever order, and copying
a file delivers all that was asked for, in whatever pieces. -/
def ReadsHost (r : DirReader) (fs : HostFs) : Prop :=
  (∀ d, (r.names d).Nodup ∧ ∀ n, n ∈ r.names d ↔ fs (d ++ [n]) ≠ none ∨ r.special (d ++ [n]) = true) ∧
  (∀ b, (r.split b).flatten = b) ∧ ∀ q, r.special q = true → fs q = none

/-- The names on the host are names. -/
def ProperNames (fs : HostFs) : Prop := ∀ q c, fs (q ++ [c]) ≠ none → HostName c

/-- Below `p` on the host `a` there is exactly what is below `q` on the host `b`: the same directories, and the same
files with the same bytes. -/
def SameBelow (a : HostFs) (p : HostPath) (b : HostFs) (q : HostPath) : Prop :=
  ∀ s, s ≠ [] → a (p ++ s) = b (q ++ s)

end Xdvdfs.Spec
