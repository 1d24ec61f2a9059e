import Verif.Model.Layout

/-!
# Block devices: `/repo/xdvdfs-core/src/blockdev.rs`
-/

namespace Xdvdfs

/-- `BlockDeviceRead`, `/repo/xdvdfs-core/src/blockdev.rs:21-25`.  `read off n` is the outcome of
`read(off, buf)` with a buffer of `n` bytes; on success it is the filled buffer, so it has `n`
bytes.  Simplification: the outcome is a function of the request (devices do not change or fail
intermittently while they are being read). -/
structure Dev where
  read : Nat → Nat → Res Bytes
  read_len : ∀ off n b, read off n = .ok b → b.length = n

/-- A device whose reads below `lim` return or fail but do not panic or hang. A condition on the implementations
of `/repo/xdvdfs-core/src/blockdev.rs:21-25`. -/
def Dev.SaneBelow (d : Dev) (lim : Nat) : Prop := ∀ off n, off < lim → (d.read off n).Returns

/-- Read of a `Read + Seek` type such as a file (`/repo/xdvdfs-core/src/blockdev.rs:229-241`):
seek, then `read_exact`; an empty read succeeds anywhere, a read past the end is an I/O error. -/
def fileRead (content : Bytes) (off n : Nat) : Res Bytes :=
  if n = 0 then .ok []
  else if off + n ≤ content.length then .ok (slice content off n)
  else .err .io

/-- Read of `[u8]` (`/repo/xdvdfs-core/src/blockdev.rs:59-69`): an offset at or past the end is
`OutOfBounds`; otherwise `size = min(len - offset, buffer.len())` bytes are copied with
`copy_from_slice`, which panics when `size ≠ buffer.len()`. -/
def memRead (content : Bytes) (off n : Nat) : Res Bytes :=
  if off ≥ content.length then .err .io
  else
    let size := min (content.length - off) n
    if size = n then .ok (slice content off size) else .panic

/-- Read through `OffsetWrapper` (`/repo/xdvdfs-core/src/blockdev.rs:191-193`).  The sum is in
`u64`: overflow is a panic. -/
def offsetRead (inner : Nat → Nat → Res Bytes) (base off n : Nat) : Res Bytes :=
  if off + base < 2 ^ 64 then inner (off + base) n else .panic

/-- `XDVD_OFFSETS`, `/repo/xdvdfs-core/src/blockdev.rs:8-13`. -/
def xdvdOffsets : List Nat := [0, 405798912, 265879552, 34078720]

/-- A file as a device. `/repo/xdvdfs-core/src/blockdev.rs:229-241`. -/
def fileDev (content : Bytes) : Dev where
  read := fileRead content
  read_len := by
    intro off n b h
    unfold fileRead at h
    split at h
    · cases h; simp_all
    · split at h
      · cases h; exact slice_length _ _ _ (by assumption)
      · cases h

theorem fileDev_read (c : Bytes) (off n : Nat) : (fileDev c).read off n = fileRead c off n := rfl

/-- A byte slice as a device. `/repo/xdvdfs-core/src/blockdev.rs:59-69`. -/
def memDev (content : Bytes) : Dev where
  read := memRead content
  read_len := by
    intro off n b h
    unfold memRead at h
    split at h
    · cases h
    · simp only at h
      split at h
      · cases h; rw [slice_length] <;> omega
      · cases h

/-- A device seen through `OffsetWrapper { inner, offset: base }`. `/repo/xdvdfs-core/src/blockdev.rs:191-193`. -/
def offsetDev (inner : Dev) (base : Nat) : Dev where
  read := offsetRead inner.read base
  read_len := by
    intro off n b h
    unfold offsetRead at h
    split at h
    · exact inner.read_len _ _ _ h
    · cases h

end Xdvdfs
