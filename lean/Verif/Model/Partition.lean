import Verif.Model.Pack

/-!
# A partition of a disc as an output device

`OffsetWrapper` is also a device to write to and a seekable stream, `/repo/xdvdfs-core/src/blockdev.rs:196-225`.
-/

namespace Xdvdfs

/-- `BlockDeviceWrite for OffsetWrapper`, `/repo/xdvdfs-core/src/blockdev.rs:204-206`, over a file.  Simplified: the
sum of the offsets is taken not to overflow; it does not for the sectors of an image, which are 32-bit numbers. -/
def partWrite (faults : Faults) (base off : Nat) (data : Bytes) (f : ImgFile) : Res Unit × ImgFile :=
  fileWrite faults (off + base) data f

/-- The default copy between devices, `RWCopier::copy`, `/repo/xdvdfs-core/src/write/fs/xdvdfs.rs:80-105`, to a
partition. -/
def partChunks (faults : Faults) (base : Nat) : Nat → List Bytes → ImgFile → Res Unit × ImgFile
  | _, [], f => (.ok (), f)
  | off, c :: cs, f =>
    match partWrite faults base off c f with
    | (.ok (), f) => partChunks faults base (off + c.length) cs f
    | (e, f) => (e, f)

/-- Packing into the partition that begins at byte `base` of a file.  `len` is the length of the whole file,
`/repo/xdvdfs-core/src/blockdev.rs:208-210`. -/
def partEnv (fs : SourceFs) (faults : Faults) (base : Nat) : PackEnv ImgFile where
  readDir := fs.readDir
  pathToString := fs.pathToString
  write := partWrite faults base
  copyIn := fun path inOff outOff size f =>
    match partChunks faults base outOff (fs.copy path inOff size).1 f with
    | (.ok (), f) => ((fs.copy path inOff size).2, f)
    | (.err e, f) => (.err e, f)
    | (.panic, f) => (.panic, f)
    | (.hang, f) => (.hang, f)
  len := fun f => .ok f.img.length

/-- `std::io::SeekFrom`. Matched at `/repo/xdvdfs-core/src/blockdev.rs:219-223`. -/
inductive SeekFrom where
  | start (n : Nat)
  | fromEnd (n : Int)
  | current (n : Int)

/-- `Seek for File` on a file of `len` bytes with the cursor at `pos`: the new cursor, which is also what is
returned; negative positions are errors. Called at `/repo/xdvdfs-core/src/blockdev.rs:221-222`. -/
def fileSeek (len pos : Nat) : SeekFrom → Res Nat
  | .start n => .ok n
  | .fromEnd n => if (len : Int) + n < 0 then .err .io else .ok ((len : Int) + n).toNat
  | .current n => if (pos : Int) + n < 0 then .err .io else .ok ((pos : Int) + n).toNat

/-- `Seek for OffsetWrapper`, `/repo/xdvdfs-core/src/blockdev.rs:213-225`: only positions from the start are
translated, and what is returned never is. -/
def partSeek (base len pos : Nat) : SeekFrom → Res Nat
  | .start n => fileSeek len pos (.start (base + n))
  | w => fileSeek len pos w

end Xdvdfs
