import Verif.Spec.Pack
import Verif.Spec.StdFs

/-!
# Reasons why packing fails
-/

namespace Xdvdfs.Spec

open Xdvdfs

/-- A reason why a listing cannot be stored, with the error that tells it: a name is too long, a name has a character that
cannot be stored, two names are the same ignoring ASCII case, or a file is too large. -/
def ListingDefect (l : List FileEntry) (e : Err) : Prop :=
  (e = .fileNameTooLong ∧ ∃ x ∈ l, 255 < utf8Len x.name) ∨
  (e = .stringEncoding ∧ ∃ x ∈ l, ∃ c ∈ x.name, ¬ InCp1252 c) ∨
  (e = .duplicateFileName ∧ ¬ DistinctNames (l.map FileEntry.name)) ∨
  (e = .fileTooLarge ∧ ∃ x ∈ l, x.isDir = false ∧ 2 ^ 32 ≤ x.len)

/-- A reason in the source for the error `e`: a directory that cannot be listed fails with it, the listing of a directory
has a defect that it tells, or a directory is too large. -/
def SourceDefect (readDir : Path → Res (List FileEntry)) (e : Err) : Prop :=
  ∃ p, DirOf readDir p ∧ (readDir p = .err e ∨ ∃ l, readDir p = .ok l ∧
    (ListingDefect l e ∨ (e = .tooManyEntries ∧ ¬ FewEntries l)))

/-- The error `e` is returned by an operation of the output or by copying a file of the source. -/
def DeviceErr (env : PackEnv σ) (e : Err) : Prop :=
  (∃ off d s, (env.write off d s).1 = .err e) ∨
  (∃ p x o s, EntryIn env.readDir p x ∧ x.isDir = false ∧ (env.copyIn (p ++ [x.name]) 0 o x.len s).1 = .err e) ∨
  ∃ s, env.len s = .err e

/-- What is on the host below `src` that explains the error `e`: a name that is too long, a name that cannot be encoded, two
different names in a directory that are the same ignoring ASCII case, a file of 4 GiB or more, or a directory with many
names. -/
def HostDefect (r : DirReader) (fs : HostFs) (src : HostPath) (e : Err) : Prop :=
  (e = .fileNameTooLong ∧ ∃ d n, fs (src ++ (d ++ [n])) ≠ none ∧ 255 < utf8Len n) ∨
  (e = .stringEncoding ∧ ∃ d n, fs (src ++ (d ++ [n])) ≠ none ∧ ∃ c ∈ n, ¬ InCp1252 c) ∨
  (e = .duplicateFileName ∧ ∃ d n m, fs (src ++ (d ++ [n])) ≠ none ∧ fs (src ++ (d ++ [m])) ≠ none ∧ n ≠ m ∧ SameName n m) ∨
  (e = .fileTooLarge ∧ ∃ q data, fs (src ++ q) = some (.file data) ∧ 2 ^ 32 ≤ data.length) ∨
  (e = .tooManyEntries ∧ ∃ d, fs (src ++ d) = some .dir ∧
    227840 < ((r.names (src ++ d)).map (fun n => (14 + n.length + 3) / 4 * 4)).sum)

end Xdvdfs.Spec
