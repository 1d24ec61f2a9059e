import Verif.Model.ImgFs

/-!
# Copying with `std::io::copy` from a source whose reads can fail

`Model/ImgFs.lean` has `StdIOCopier` for a source that can be read without errors.  Here the loop of `std::io::copy` is
modelled, with a source that delivers what it likes and may fail at any read.
-/

namespace Xdvdfs

/-- A source of bytes: what `Read::read` gives when it is asked for up to `n` bytes (`n > 0`) at position `pos`.
What `std::io::copy` reads from at `/repo/xdvdfs-core/src/write/fs/xdvdfs.rs:180`. -/
abbrev ReadAt := (pos n : Nat) → Res Bytes

/-- The loop of `std::io::copy(&mut src.by_ref().take(size), dest)`,
`/repo/xdvdfs-core/src/write/fs/xdvdfs.rs:153-154` and `:180-181`: `Take` delivers nothing more when nothing is left, and
asks for `left` bytes at most; the loop ends when nothing is delivered, and at the first error.  `buf` is the size of the
buffer, `copied` what is returned.  Simplifications: interrupted reads, which are repeated, are not modelled; `Take`
delivers at most what was asked for. -/
def ioCopyLoop (read : ReadAt) (buf : Nat) : (fuel pos left copied : Nat) → List Bytes × Res Nat
  | 0, _, _, _ => ([], .hang)
  | fuel + 1, pos, left, copied =>
    if left = 0 then ([], .ok copied)
    else match read pos (min left buf) with
      | .ok [] => ([], .ok copied)
      | .ok (x :: xs) =>
        let r := ioCopyLoop read buf fuel (pos + (x :: xs).length) (left - (x :: xs).length) (copied + (x :: xs).length)
        ((x :: xs) :: r.1, r.2)
      | .err e => ([], .err e)
      | .panic => ([], .panic)
      | .hang => ([], .hang)

/-- `StdIOCopier::copy`, `/repo/xdvdfs-core/src/write/fs/xdvdfs.rs:132-183`, from a source seen at offset `base` (0 without an
`OffsetWrapper`).  At most `size` reads deliver something, so `size + 1` rounds are enough.  Simplification: seeking does not
fail, and `base + offset` does not overflow. -/
def ioCopier (read : ReadAt) (buf base : Nat) : Copier := fun offset size =>
  ioCopyLoop read buf (size + 1) (base + offset) size 0

end Xdvdfs
