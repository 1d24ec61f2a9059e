import Verif.Basic

/-!
# `/repo/xdvdfs-core/src/util.rs`
-/

namespace Xdvdfs

/-- `char::to_ascii_uppercase` (used in `/repo/xdvdfs-core/src/util.rs:78-79`), on code points. -/
def upperNat (n : Nat) : Nat := if 97 ≤ n ∧ n ≤ 122 then n - 32 else n

/-- `cmp_ignore_case_utf8`, `/repo/xdvdfs-core/src/util.rs:75-103`: compares the upper-cased
characters one by one (Rust `char` order is code point order); the shorter one is less. -/
def cmpIgnoreCase : Str → Str → Ordering
  | [], [] => .eq
  | [], _ :: _ => .lt
  | _ :: _, [] => .gt
  | a :: as, b :: bs =>
    match compare (upperNat a.toNat) (upperNat b.toNat) with
    | .eq => cmpIgnoreCase as bs
    | o => o

end Xdvdfs
