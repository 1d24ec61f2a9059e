import Verif.Model.Sector

/-!
# Specification vocabulary for sector allocation
-/

namespace Xdvdfs.Spec

/-- Successive allocations from one allocator; returns the first sector of each allocation and the
final allocator state. -/
def allocSeqFrom : Nat → List Nat → Res (List Nat × Nat)
  | next, [] => .ok ([], next)
  | next, n :: ns => do
    let (s, next) ← allocate next n
    let (ss, next) ← allocSeqFrom next ns
    pure (s :: ss, next)

/-- Successive allocations from a new allocator. -/
def allocSeq (ns : List Nat) : Res (List Nat × Nat) := allocSeqFrom allocInit ns

/-- Whole sectors needed for `n` bytes; at least one. -/
def sectorsFor (n : Nat) : Nat := max 1 ((n + 2047) / 2048)

end Xdvdfs.Spec
