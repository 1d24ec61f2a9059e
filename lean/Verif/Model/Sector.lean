import Verif.Model.Layout

/-!
# Sector allocation: `/repo/xdvdfs-core/src/write/sector.rs`

The allocator state is its only field, `next_free`.  `u32` values are `Nat`s with an explicit
overflow check; overflow and failed conversions are `panic`.
-/

namespace Xdvdfs

/-- `SectorAllocator::default`, `/repo/xdvdfs-core/src/write/sector.rs:7-12`. -/
def allocInit : Nat := 33

/-- `required_sectors`, `/repo/xdvdfs-core/src/write/sector.rs:14-28`. -/
def requiredSectors (len : Nat) : Res Nat :=
  if len ≠ 0 then
    if len / sectorSize < 2 ^ 32 then
      let n := len / sectorSize + (if len % sectorSize > 0 then 1 else 0)
      if n < 2 ^ 32 then .ok n else .panic
    else .panic
  else .ok 1

/-- `SectorAllocator::allocate_contiguous`, `/repo/xdvdfs-core/src/write/sector.rs:33-38`: returns
the first sector of the allocation and the new `next_free`. -/
def allocate (next bytes : Nat) : Res (Nat × Nat) := do
  let sectors ← requiredSectors bytes
  if next + sectors < 2 ^ 32 then pure (next, next + sectors) else .panic

end Xdvdfs
