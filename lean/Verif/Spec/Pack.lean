import Verif.Model.Pack
import Verif.Spec.Dirtab

/-!
# Specification vocabulary for packing

The source tree is described only through what listing its directories returns.
-/

namespace Xdvdfs.Spec

/-- `p` is the path of a directory of the source: the root, or a subdirectory listed in a directory
of the source. -/
inductive DirOf (readDir : Path → Res (List FileEntry)) : Path → Prop
  | root : DirOf readDir []
  | sub {p l e} : DirOf readDir p → readDir p = .ok l → e ∈ l → e.isDir = true →
      DirOf readDir (p ++ [e.name])

/-- Directory `p` of the source contains the entry `e`. -/
def EntryIn (readDir : Path → Res (List FileEntry)) (p : Path) (e : FileEntry) : Prop :=
  DirOf readDir p ∧ ∃ l, readDir p = .ok l ∧ e ∈ l

/-- A source never delivers more bytes than it is asked for. -/
def Bounded (fs : SourceFs) : Prop := ∀ p n, (fs.copy p 0 n).1.flatten.length ≤ n

/-- Whenever the source successfully delivers one of its files, what it delivers is the content of
the file, of the length given in the listing. -/
def FaithfulTo (fs : SourceFs) (content : Path → Bytes) : Prop :=
  ∀ p e k, EntryIn fs.readDir p e → e.isDir = false → (fs.copy (p ++ [e.name]) 0 e.len).2 = .ok k →
    (fs.copy (p ++ [e.name]) 0 e.len).1.flatten = content (p ++ [e.name]) ∧
    (content (p ++ [e.name])).length = e.len

/-- Two paths agree component by component, ignoring ASCII case. -/
def SamePath (p q : Path) : Prop := p.map upper = q.map upper

/-- The string naming a path: every component preceded by a slash. -/
def slashPath (q : Path) : Str := q.flatMap (fun s => '/' :: s)

/-- Every component is non-empty and contains no slash. -/
def PlainPath (q : Path) : Prop := ∀ s ∈ q, s ≠ [] ∧ '/' ∉ s

/-- `fuel` exceeds twice the binary logarithm of the number of entries (plus one) of every directory
of the source. -/
def SearchBudget (readDir : Path → Res (List FileEntry)) (fuel : Nat) : Prop :=
  ∀ p l, DirOf readDir p → readDir p = .ok l → 2 * Nat.log2 (l.length + 1) < fuel

/-- Every file of the source is found in the image under its path in any letter case, as a file
entry with its name, and reading it gives the source content. -/
def FindsFiles (dev : Dev) (root : Region) (readDir : Path → Res (List FileEntry))
    (content : Path → Bytes) : Prop :=
  ∀ p e q fuel, EntryIn readDir p e → e.isDir = false → SamePath (p ++ [e.name]) q → PlainPath q →
    SearchBudget readDir fuel →
    ∃ d, walkPath dev root (slashPath q) fuel = .ok d ∧ d.nameStr = e.name ∧
      d.node.dirent.isDirectory = false ∧ readDataAll dev d.node.dirent = .ok (content (p ++ [e.name]))

/-- Every directory of the source other than the root is found in the image under its path in any
letter case, as a directory entry with its name. -/
def FindsDirs (dev : Dev) (root : Region) (readDir : Path → Res (List FileEntry)) : Prop :=
  ∀ p e q fuel, EntryIn readDir p e → e.isDir = true → SamePath (p ++ [e.name]) q → PlainPath q →
    SearchBudget readDir fuel →
    ∃ d, walkPath dev root (slashPath q) fuel = .ok d ∧ d.nameStr = e.name ∧
      d.node.dirent.isDirectory = true

/-- No other path is found in the image. -/
def FindsNothingElse (dev : Dev) (root : Region) (readDir : Path → Res (List FileEntry)) : Prop :=
  ∀ q fuel, q ≠ [] → PlainPath q → (∀ p e, EntryIn readDir p e → ¬ SamePath (p ++ [e.name]) q) →
    SearchBudget readDir fuel →
    walkPath dev root (slashPath q) fuel = .err .doesNotExist ∨
      walkPath dev root (slashPath q) fuel = .err .isNotDirectory

/-- The parent path, name, kind and (for files) size and content of an entry of the source. -/
def entryKey (content : Path → Bytes) (x : Path × FileEntry) : Str × Str × Bool × Option (Nat × Res Bytes) :=
  (slashPath x.1, x.2.name, x.2.isDir,
    if x.2.isDir then none else some (x.2.len, .ok (content (x.1 ++ [x.2.name]))))

/-- The parent path, name, kind and (for files) size and the result of reading an entry listed from
an image. -/
def direntKey (dev : Dev) (x : Str × DirEnt) : Str × Str × Bool × Option (Nat × Res Bytes) :=
  (x.1, x.2.nameStr, x.2.node.dirent.isDirectory,
    if x.2.node.dirent.isDirectory then none
    else some (x.2.node.dirent.data.size.toNat, readDataAll dev x.2.node.dirent))

/-- The recursive listing of the image is, up to order, the list `all` of all entries of the
source; reading the listed files gives their contents. -/
def ListsTree (dev : Dev) (root : Region) (readDir : Path → Res (List FileEntry))
    (content : Path → Bytes) : Prop :=
  ∃ all : List (Path × FileEntry), all.Nodup ∧ (∀ p e, (p, e) ∈ all ↔ EntryIn readDir p e) ∧
    ∃ listed, (∀ fuel, all.length + 1 < fuel → fileTree dev root fuel = .ok listed) ∧
      (listed.map (direntKey dev)).Perm (all.map (entryKey content))

/-- The image is a volume that contains the complete source tree and nothing else. -/
def HoldsTree (dev : Dev) (readDir : Path → Res (List FileEntry)) (content : Path → Bytes) : Prop :=
  ∃ vol, readVolume dev = .ok vol ∧ FindsFiles dev vol.root readDir content ∧
    FindsDirs dev vol.root readDir ∧ FindsNothingElse dev vol.root readDir ∧
    ListsTree dev vol.root readDir content

/-- Two writes (an offset and the bytes written there) have no byte in common. -/
def ShareNoByte (a b : Nat × Bytes) : Prop :=
  ¬ ∃ i, (a.1 ≤ i ∧ i < a.1 + a.2.length) ∧ (b.1 ≤ i ∧ i < b.1 + b.2.length)

/-- The paths of all entries of the listed directories. -/
def entryPaths (dirs : List (Path × List FileEntry)) : List Path :=
  dirs.flatMap (fun x => x.2.map (fun e => x.1 ++ [e.name]))

/-! ## Representable sources -/

/-- `tree` lists every directory of the source that can be listed exactly once, with its listing. -/
def TreeOf (readDir : Path → Res (List FileEntry)) (tree : List (Path × List FileEntry)) : Prop :=
  (tree.map Prod.fst).Nodup ∧ ∀ p l, (p, l) ∈ tree ↔ DirOf readDir p ∧ readDir p = .ok l

/-- Sectors that suffice for one directory: for its table (an entry takes at most 272 bytes, and the
gap before it is smaller) and for the data of its files. -/
def dirSectors (l : List FileEntry) : Nat :=
  544 * l.length / 2048 + 1 + ((l.filter (fun e => !e.isDir)).map (fun e => sectorsFor e.len)).sum

/-- The image stays below `2^32` sectors and every directory table below `2^32` bytes. -/
def Fits (tree : List (Path × List FileEntry)) : Prop :=
  33 + (tree.map (fun x => dirSectors x.2)).sum < 2 ^ 32 ∧ ∀ x ∈ tree, 544 * x.2.length + 2048 < 2 ^ 32

/-- A listing can be stored in a directory table: names of at most 255 bytes in characters of
Windows-1252, distinct ignoring ASCII case, and files below 4 GiB. -/
def StorableListing (l : List FileEntry) : Prop :=
  DistinctNames (l.map FileEntry.name) ∧
  ∀ e ∈ l, utf8Len e.name ≤ 255 ∧ (∀ c ∈ e.name, InCp1252 c) ∧ (e.isDir = false → e.len < 2 ^ 32)

/-- Every table built for the names of the listing announces at most 256 KiB. -/
def TableWithin256K (l : List FileEntry) : Prop :=
  ∀ items w n, items.map Item.name = l.map FileEntry.name → buildTable items = .ok w →
    w.dirtabSize = .ok n → n ≤ 262144

/-- The entries of the listing take at most `128 * 1780` bytes: 14 bytes and the name each, rounded
up to a multiple of four. -/
def FewEntries (l : List FileEntry) : Prop :=
  (l.map (fun e => (14 + e.name.length + 3) / 4 * 4)).sum ≤ 227840

/-- No operation of the source and the device panics or hangs. -/
def EnvReturns (env : PackEnv σ) : Prop :=
  (∀ p, DirOf env.readDir p → (env.readDir p).Returns) ∧ (∀ off d s, (env.write off d s).1.Returns) ∧
  (∀ p i o n s, (env.copyIn p i o n s).1.Returns) ∧ ∀ s, (env.len s).Returns

/-- Every directory of the source can be listed. -/
def Listable (readDir : Path → Res (List FileEntry)) : Prop := ∀ p, DirOf readDir p → ∃ l, readDir p = .ok l

/-- Every write and length query succeeds, and every file of the source can be copied completely. -/
def DeviceWorks (env : PackEnv σ) : Prop :=
  (∀ off d s, (env.write off d s).1 = .ok ()) ∧
  (∀ p e o s, EntryIn env.readDir p e → e.isDir = false →
    ∃ k, (env.copyIn (p ++ [e.name]) 0 o e.len s).1 = .ok k) ∧
  ∀ s, ∃ n, env.len s = .ok n

end Xdvdfs.Spec
