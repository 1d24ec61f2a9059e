import Verif.Model.ImgFs
import Verif.Model.StdFs

/-!
# Memory as output device

`BlockDeviceWrite for Box<[u8]>`, `/repo/xdvdfs-core/src/blockdev.rs:72-91`, and packing into it.
-/

namespace Xdvdfs

/-- `write` of `Box<[u8]>`, `/repo/xdvdfs-core/src/blockdev.rs:77-86`; `OutOfBounds` is an I/O error here, and
changes nothing.  Offsets are below the size of `usize`. -/
def boxWrite (off : Nat) (data : Bytes) (b : Bytes) : Res Unit × Bytes :=
  match memWrite off data b with
  | .ok b' => (.ok (), b')
  | .err e => (.err e, b)
  | .panic => (.panic, b)
  | .hang => (.hang, b)

/-- The chunks a source delivers, written one after the other, as by `RWCopier::copy`,
`/repo/xdvdfs-core/src/write/fs/xdvdfs.rs:80-105`. -/
def boxChunks : Nat → List Bytes → Bytes → Res Unit × Bytes
  | _, [], b => (.ok (), b)
  | off, c :: cs, b =>
    match boxWrite off c b with
    | (.ok (), b) => boxChunks (off + c.length) cs b
    | (e, b) => (e, b)

/-- Packing into a `Box<[u8]>` from a source that writes what it delivers chunk by chunk
(`FilesystemCopier for XDVDFSFilesystem`, `/repo/xdvdfs-core/src/write/fs/xdvdfs.rs:242-328`, or such a source under
a remap overlay).  The length is that of the buffer, `/repo/xdvdfs-core/src/blockdev.rs:88-90`. -/
def boxEnv (fs : SourceFs) : PackEnv Bytes where
  readDir := fs.readDir
  pathToString := fs.pathToString
  write := boxWrite
  copyIn := fun path inOff outOff size b =>
    match boxChunks outOff (fs.copy path inOff size).1 b with
    | (.ok (), b) => ((fs.copy path inOff size).2, b)
    | (.err e, b) => (.err e, b)
    | (.panic, b) => (.panic, b)
    | (.hang, b) => (.hang, b)
  len := fun b => .ok b.length

/-- One `Read::read` from a file of the host, opened and moved to `off`,
`/repo/xdvdfs-core/src/write/fs/stdfs.rs:118-127`.  Simplification: the read delivers all there is, up to the size of
the buffer. -/
def stdRead (fs : HostFs) (root : HostPath) (p : Path) (off n : Nat) : Res Bytes :=
  match fs (root ++ p) with
  | some (.file data) => .ok ((data.drop off).take n)
  | _ => .err .io

/-- Packing a directory of the host into a `Box<[u8]>`: files are copied by
`FilesystemCopier<Box<[u8]>> for StdFilesystem`, `/repo/xdvdfs-core/src/write/fs/stdfs.rs:104-131`.  When copying fails
or panics the buffer is taken to be unchanged. -/
def boxStdEnv (r : DirReader) (fs : HostFs) (root : HostPath) : PackEnv Bytes where
  readDir := stdReadDir r fs root
  pathToString := (stdFs r fs root).pathToString
  write := boxWrite
  copyIn := fun path inOff outOff size b =>
    match stdBufCopy (stdRead fs root) path b inOff outOff size with
    | .ok (n, b') => (.ok n, b')
    | .err e => (.err e, b)
    | .panic => (.panic, b)
    | .hang => (.hang, b)
  len := fun b => .ok b.length

end Xdvdfs
