import Verif.Basic

/-!
# On-disk layout: `/repo/xdvdfs-core/src/layout.rs`
-/

namespace Xdvdfs

/-- `SECTOR_SIZE`, `/repo/xdvdfs-core/src/layout.rs:12`. -/
abbrev sectorSize : Nat := 2048

/-- `VOLUME_HEADER_MAGIC` = `b"MICROSOFT*XBOX*MEDIA"`, `/repo/xdvdfs-core/src/layout.rs:13`. -/
def volumeMagic : Bytes :=
  [77, 73, 67, 82, 79, 83, 79, 70, 84, 42, 88, 66, 79, 88, 42, 77, 69, 68, 73, 65]

/-- `DiskRegion`, `/repo/xdvdfs-core/src/layout.rs:20-23`.
Also models `DirectoryEntryTable` (lines 31-33), which only wraps a region. -/
structure Region where
  sector : UInt32
  size : UInt32
  deriving DecidableEq, Repr

/-- `DiskRegion::is_empty`, `/repo/xdvdfs-core/src/layout.rs:116-118`. -/
def Region.isEmpty (r : Region) : Bool := r.size == 0

/-- `DiskRegion::offset`, `/repo/xdvdfs-core/src/layout.rs:124-132`.
The addition is in `u64`; it is modelled in `Nat` (theorem `C05_region_offset` shows that it
cannot overflow). -/
def Region.offset (r : Region) (off : Nat) : Res Nat :=
  if off ≥ r.size.toNat then .err .sizeOutOfBounds
  else .ok (sectorSize * r.sector.toNat + off)

/-- `DirectoryEntryDiskData`, `/repo/xdvdfs-core/src/layout.rs:85-89`; `attrs` is the raw byte of
`DirentAttributes` (lines 50-63). -/
structure DiskData where
  data : Region
  attrs : UInt8
  nameLen : UInt8
  deriving DecidableEq, Repr

/-- `DirentAttributes::directory`: bit 4, `/repo/xdvdfs-core/src/layout.rs:59`;
`is_directory`, lines 219-221. -/
def DiskData.isDirectory (d : DiskData) : Bool := d.attrs &&& 0x10 != 0

/-- `DirectoryEntryDiskData::dirent_table`, `/repo/xdvdfs-core/src/layout.rs:223-229`. -/
def DiskData.direntTable (d : DiskData) : Option Region :=
  if d.isDirectory then some d.data else none

/-- `DirectoryEntryDiskNode`, `/repo/xdvdfs-core/src/layout.rs:72-76`. -/
structure DiskNode where
  left : UInt16
  right : UInt16
  dirent : DiskData
  deriving DecidableEq, Repr

/-- `DirectoryEntryNode`, `/repo/xdvdfs-core/src/layout.rs:94-98`.
Simplification: `name` holds the first `filename_length` bytes of the 256-byte array; the code
leaves the others zero (`/repo/xdvdfs-core/src/read.rs:127,145`) and only ever reads this prefix
(`name_slice`, `layout.rs:306-309`). -/
structure DirEnt where
  node : DiskNode
  name : Bytes
  offset : Nat
  deriving DecidableEq, Repr

/-- Little-endian fixed-width integer encoding, as performed by `bincode` with
`with_fixint_encoding().with_little_endian()` (`/repo/xdvdfs-core/src/layout.rs:166-169`). -/
def natLE : Nat → Nat → Bytes
  | 0, _ => []
  | k + 1, n => UInt8.ofNat n :: natLE k (n / 256)

/-- Little-endian decoding (`/repo/xdvdfs-core/src/layout.rs:173-176`). -/
def leNat : Bytes → Nat
  | [] => 0
  | b :: bs => b.toNat + 256 * leNat bs

/-- `DirectoryEntryDiskNode::serialize`, `/repo/xdvdfs-core/src/layout.rs:378-383`: the fields of
the struct (lines 72-76, 85-89, 20-23) in declaration order. -/
def DiskNode.ser (n : DiskNode) : Bytes :=
  natLE 2 n.left.toNat ++ (natLE 2 n.right.toNat ++ (natLE 4 n.dirent.data.sector.toNat ++
    (natLE 4 n.dirent.data.size.toNat ++ [n.dirent.attrs, n.dirent.nameLen])))

/-- `DirectoryEntryDiskNode::deserialize`, `/repo/xdvdfs-core/src/layout.rs:385-390`.  The Rust
parameter is `[u8; 14]` and every field is an integer, so it cannot fail; `none` covers lists of
another length, which the Rust type rules out. -/
def DiskNode.deser (b : Bytes) : Option DiskNode :=
  match b with
  | [l0, l1, r0, r1, s0, s1, s2, s3, z0, z1, z2, z3, a, n] =>
    some {
      left := UInt16.ofNat (leNat [l0, l1])
      right := UInt16.ofNat (leNat [r0, r1])
      dirent := {
        data := { sector := UInt32.ofNat (leNat [s0, s1, s2, s3])
                  size := UInt32.ofNat (leNat [z0, z1, z2, z3]) }
        attrs := a
        nameLen := n } }
  | _ => none

/-- `VolumeDescriptor`, `/repo/xdvdfs-core/src/layout.rs:39-48`. -/
structure VolDesc where
  magic0 : Bytes
  root : Region
  filetime : UInt64
  unused : Bytes
  magic1 : Bytes
  deriving DecidableEq, Repr

/-- `VolumeDescriptor::new`, `/repo/xdvdfs-core/src/layout.rs:151-159`. -/
def VolDesc.new (root : Region) : VolDesc :=
  { magic0 := volumeMagic, root := root, filetime := 0,
    unused := List.replicate 0x7c8 0, magic1 := volumeMagic }

/-- `VolumeDescriptor::is_valid`, `/repo/xdvdfs-core/src/layout.rs:161-163`. -/
def VolDesc.isValid (v : VolDesc) : Bool := v.magic0 == volumeMagic && v.magic1 == volumeMagic

/-- `VolumeDescriptor::serialize`, `/repo/xdvdfs-core/src/layout.rs:165-170`. -/
def VolDesc.ser (v : VolDesc) : Bytes :=
  v.magic0 ++ (natLE 4 v.root.sector.toNat ++ (natLE 4 v.root.size.toNat ++
    (natLE 8 v.filetime.toNat ++ (v.unused ++ v.magic1))))

/-- `VolumeDescriptor::deserialize`, `/repo/xdvdfs-core/src/layout.rs:172-177`.  The Rust parameter
is `[u8; 0x800]`; it cannot fail on it. -/
def VolDesc.deser (b : Bytes) : VolDesc :=
  { magic0 := slice b 0 0x14
    root := { sector := UInt32.ofNat (leNat (slice b 0x14 4))
              size := UInt32.ofNat (leNat (slice b 0x18 4)) }
    filetime := UInt64.ofNat (leNat (slice b 0x1c 8))
    unused := slice b 0x24 0x7c8
    magic1 := slice b 0x7ec 0x14 }

/-! ## Windows-1252 (`encoding_rs::WINDOWS_1252`) -/

/-- Code points of bytes `0x80..0x9f` in the WHATWG index windows-1252, which `encoding_rs`
implements (`/repo/xdvdfs-core/src/layout.rs:5`).  Every byte is mapped. -/
def cp1252High : List Nat :=
  [0x20AC, 0x81, 0x201A, 0x192, 0x201E, 0x2026, 0x2020, 0x2021,
   0x2C6, 0x2030, 0x160, 0x2039, 0x152, 0x8D, 0x17D, 0x8F,
   0x90, 0x2018, 0x2019, 0x201C, 0x201D, 0x2022, 0x2013, 0x2014,
   0x2DC, 0x2122, 0x161, 0x203A, 0x153, 0x9D, 0x17E, 0x178]

/-- Code point of one byte. The table used at `/repo/xdvdfs-core/src/layout.rs:315-316`. -/
def decodeByteNat (b : UInt8) : Nat :=
  if 0x80 ≤ b.toNat ∧ b.toNat < 0xA0 then
    match cp1252High[b.toNat - 0x80]? with
    | some c => c
    | none => b.toNat  -- unreachable: the table has 32 entries
  else b.toNat

/-- Decoding of one byte by `WINDOWS_1252` (`/repo/xdvdfs-core/src/layout.rs:315-316`). -/
def decodeByte (b : UInt8) : Char := Char.ofNat (decodeByteNat b)

/-- `decode_without_bom_handling_and_without_replacement`
(`/repo/xdvdfs-core/src/layout.rs:315-317`): total, because windows-1252 maps all 256 bytes. -/
def decodeName (b : Bytes) : Str := b.map decodeByte

/-- Encoding of one character: the byte that decodes to it, if there is one
(`/repo/xdvdfs-core/src/layout.rs:334-336`, `encoding_rs` single-byte encoder). -/
def encodeChar (c : Char) : Option UInt8 :=
  if c.toNat < 0x80 ∨ (0xA0 ≤ c.toNat ∧ c.toNat ≤ 0xFF) then some (UInt8.ofNat c.toNat)
  else (cp1252High.idxOf? c.toNat).map (fun i => UInt8.ofNat (0x80 + i))

/-- Character-wise encoding, stopping at the first unmappable character. Called at
`/repo/xdvdfs-core/src/layout.rs:334-336`. -/
def encodeChars : Str → Option Bytes
  | [] => some []
  | c :: cs =>
    match encodeChar c, encodeChars cs with
    | some b, some bs => some (b :: bs)
    | _, _ => none

/-- `DirectoryEntryData::encode_name` with the 256-byte buffers its callers pass,
`/repo/xdvdfs-core/src/layout.rs:332-347`: fails on an unmappable character, when the buffer
overflows, and when the number of bytes does not fit in `u8`; all give `StringEncodingError`. -/
def encodeName (name : Str) : Res Bytes :=
  match encodeChars name with
  | some bs => if bs.length ≤ 255 then .ok bs else .err .stringEncoding
  | none => .err .stringEncoding

/-- `DirectoryEntryNode::name_str`, `/repo/xdvdfs-core/src/layout.rs:313-318`. -/
def DirEnt.nameStr (d : DirEnt) : Str := decodeName d.name

/-- `DirectoryEntryData::len_on_disk`, `/repo/xdvdfs-core/src/layout.rs:351-360`. -/
def lenOnDisk (name : Str) : Res Nat := do
  let bs ← encodeName name
  let size := 0xe + bs.length
  pure (if size % 4 > 0 then size + (4 - size % 4) else size)

end Xdvdfs
