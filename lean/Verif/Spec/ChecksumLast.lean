import Verif.Spec.Checksum

/-!
# Listings without the entries that are listed again
-/

namespace Xdvdfs.Spec

/-- `kept` is the listing without every entry whose path is listed again later. -/
inductive LastOnly : List (Str × DirEnt) → List (Str × DirEnt) → Prop
  | nil : LastOnly [] []
  | keep {x : Str × DirEnt} {rest kept : List (Str × DirEnt)} :
    (∀ y ∈ rest, y.1 ++ '/' :: y.2.nameStr ≠ x.1 ++ '/' :: x.2.nameStr) → LastOnly rest kept →
    LastOnly (x :: rest) (x :: kept)
  | drop {x y : Str × DirEnt} {rest kept : List (Str × DirEnt)} :
    y ∈ rest → y.1 ++ '/' :: y.2.nameStr = x.1 ++ '/' :: x.2.nameStr → LastOnly rest kept → LastOnly (x :: rest) kept

end Xdvdfs.Spec
