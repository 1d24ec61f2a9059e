import Verif.Model.Pack

/-!
# The buffered output file of the command line tool

`cmd_pack` and `cmd_build_image` write through `std::io::BufWriter::with_capacity(1024 * 1024, image)`
(`/repo/xdvdfs-cli/src/cmd_pack.rs:66-71`, `/repo/xdvdfs-cli/src/cmd_build_image.rs:221-227`) and never flush it:
the rest of the buffer is written when the writer is dropped, and an error then is ignored.  `BufWriter` itself is
part of the Rust standard library; what is modelled here is its documented behaviour.
-/

namespace Xdvdfs

/-- The file behind the buffer: its bytes, its cursor, the buffered bytes (to be written at the cursor), and the
number of writes made to it. The standard library's buffer, as the tool uses it at
`/repo/xdvdfs-cli/src/cmd_pack.rs:71`, `/repo/xdvdfs-core/src/blockdev.rs:263-277`. -/
structure BufFile where
  img : Bytes
  pos : Nat
  buf : Bytes
  n : Nat
  deriving DecidableEq, Repr

/-- A write of `data` to the file at the cursor. If the `n`-th write fails (`some m`), only the first `m` bytes
reach the file. The standard library's buffer, as the tool uses it at `/repo/xdvdfs-cli/src/cmd_pack.rs:71`,
`/repo/xdvdfs-core/src/blockdev.rs:263-277`. -/
def rawWrite (faults : Faults) (data : Bytes) (b : BufFile) : Res Unit × BufFile :=
  match faults b.n with
  | none => (.ok (), { b with img := writeAt b.img b.pos data, pos := b.pos + data.length, n := b.n + 1 })
  | some m => (.err .io,
      { b with img := writeAt b.img b.pos (data.take m), pos := b.pos + (data.take m).length, n := b.n + 1 })

/-- `BufWriter::flush_buf`: write the buffer; what could not be written stays in the buffer. The standard
library's buffer, as the tool uses it at `/repo/xdvdfs-cli/src/cmd_pack.rs:71`,
`/repo/xdvdfs-core/src/blockdev.rs:263-277`. -/
def flushBuf (faults : Faults) (b : BufFile) : Res Unit × BufFile :=
  if b.buf = [] then (.ok (), b)
  else match faults b.n with
    | none => (.ok (), { (rawWrite faults b.buf b).2 with buf := [] })
    | some m => (.err .io, { (rawWrite faults b.buf b).2 with buf := b.buf.drop m })

/-- `BufWriter::seek`: flush, then move the cursor. The standard library's buffer, as the tool uses it at
`/repo/xdvdfs-cli/src/cmd_pack.rs:71`, `/repo/xdvdfs-core/src/blockdev.rs:263-277`. -/
def bufSeek (faults : Faults) (off : Nat) (b : BufFile) : Res Unit × BufFile :=
  match flushBuf faults b with
  | (.ok (), b) => (.ok (), { b with pos := off })
  | (e, b) => (e, b)

/-- How the buffer is used: its capacity, and when it is flushed although there is room (`std::io::copy` reads
directly into the buffer and flushes it when little room is left).
`/repo/xdvdfs-core/src/write/fs/stdfs.rs:93-100`, `/repo/xdvdfs-cli/src/cmd_pack.rs:71`. -/
structure BufPolicy where
  cap : Nat
  early : BufFile → Bytes → Bool

/-- `BufWriter::write_all`: flush first if there is not enough room, then put the data in the buffer, or write
it directly if it is at least as large as the buffer. The standard library's buffer, as the tool uses it at
`/repo/xdvdfs-cli/src/cmd_pack.rs:71`, `/repo/xdvdfs-core/src/blockdev.rs:263-277`. -/
def bufPut (pol : BufPolicy) (faults : Faults) (data : Bytes) (b : BufFile) : Res Unit × BufFile :=
  match (if b.buf.length + data.length > pol.cap ∨ pol.cap ≤ data.length ∨ pol.early b data then flushBuf faults b else (.ok (), b)) with
  | (.ok (), b) => if pol.cap ≤ data.length then rawWrite faults data b else (.ok (), { b with buf := b.buf ++ data })
  | (e, b) => (e, b)

/-- `BlockDeviceWrite::write` for `BufWriter<File>`, `/repo/xdvdfs-core/src/blockdev.rs:266-272`. -/
def bufWrite (pol : BufPolicy) (faults : Faults) (off : Nat) (data : Bytes) (b : BufFile) : Res Unit × BufFile :=
  match bufSeek faults off b with
  | (.ok (), b) => bufPut pol faults data b
  | (e, b) => (e, b)

/-- Putting chunks one after the other. As `std::io::copy` does at
`/repo/xdvdfs-core/src/write/fs/stdfs.rs:100`. -/
def bufChunks (pol : BufPolicy) (faults : Faults) : List Bytes → BufFile → Res Unit × BufFile
  | [], b => (.ok (), b)
  | c :: cs, b =>
    match bufPut pol faults c b with
    | (.ok (), b) => bufChunks pol faults cs b
    | (e, b) => (e, b)

/-- Packing a source filesystem into a file through a buffer: `copy_file_in` seeks and then copies chunk by chunk
(`/repo/xdvdfs-core/src/write/fs/stdfs.rs:83-101`, `/repo/xdvdfs-core/src/write/fs/xdvdfs.rs:138-182`); `len` asks the
file, not the buffer (`/repo/xdvdfs-core/src/blockdev.rs:274-276`). -/
def bufEnv (fs : SourceFs) (pol : BufPolicy) (faults : Faults) : PackEnv BufFile where
  readDir := fs.readDir
  pathToString := fs.pathToString
  write := bufWrite pol faults
  copyIn := fun path inOff outOff size b =>
    match bufSeek faults outOff b with
    | (.ok (), b) =>
      match bufChunks pol faults (fs.copy path inOff size).1 b with
      | (.ok (), b) => ((fs.copy path inOff size).2, b)
      | (.err e, b) => (.err e, b)
      | (.panic, b) => (.panic, b)
      | (.hang, b) => (.hang, b)
    | (.err e, b) => (.err e, b)
    | (.panic, b) => (.panic, b)
    | (.hang, b) => (.hang, b)
  len := fun b => .ok b.img.length

/-- The buffer of the command line tool: 1 MiB. `/repo/xdvdfs-cli/src/cmd_pack.rs:71`. -/
def cliPolicy (early : BufFile → Bytes → Bool) : BufPolicy := { cap := 1024 * 1024, early }

/-- `Drop for BufWriter`: flush, ignoring errors. At the end of `/repo/xdvdfs-cli/src/cmd_pack.rs:54-103`. -/
def dropBuf (faults : Faults) (b : BufFile) : BufFile := (flushBuf faults b).2

/-- `cmd_pack_path` after its checks, `/repo/xdvdfs-cli/src/cmd_pack.rs:66-103`: the file is created empty, packed
into, and closed.  The result is that of `create_xdvdfs_image`; the file is what is left on disk. -/
def packFile (fs : SourceFs) (pol : BufPolicy) (faults : Faults) (fuel : Nat) : Res Unit × BufFile :=
  let r := createImage (bufEnv fs pol faults) fuel ⟨⟨[], 0, [], 0⟩, []⟩
  (r.1, dropBuf faults r.2.dev)

end Xdvdfs
