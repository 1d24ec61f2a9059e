import Verif.Model.IoCopy

/-!
# Vocabulary for reading files in pieces
-/

namespace Xdvdfs.Spec

/-- A read of a file with the given contents: some of the bytes asked for, at least one unless the end is reached. -/
def ReadsFile (content : Bytes) (read : ReadAt) : Prop :=
  ∀ pos n, 0 < n → ∃ k, k ≤ n ∧ read pos n = .ok (slice content pos k) ∧ (pos < content.length → 0 < k)

end Xdvdfs.Spec
