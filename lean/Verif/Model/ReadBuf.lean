import Verif.Model.Read

/-!
# Reading a file into a buffer of the caller
-/

namespace Xdvdfs

/-- `read_data`, `/repo/xdvdfs-core/src/layout.rs:233-245`: what the buffer holds after it.  The buffer is read as a whole,
whatever the length of the file is; for an empty file nothing is read.  (What the buffer holds after an error is left
open.) -/
def readData (dev : Dev) (d : DiskData) (buf : Bytes) : Res Bytes :=
  if d.data.size = 0 then .ok buf
  else do
    let off ← d.data.offset 0
    dev.read off buf.length

end Xdvdfs
