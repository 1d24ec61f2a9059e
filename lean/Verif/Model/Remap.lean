import Verif.Model.Trie
import Verif.Model.Read
import Verif.Model.Pack

/-!
# Model of the remapping overlay: `/repo/xdvdfs-core/src/write/fs/remap.rs`

The glob engine (`wax`) is a parameter.  Simplification: the union of all globs (`wax::any`) is taken to
match exactly what one of the globs matches, and to build whenever all globs build.
-/

namespace Xdvdfs

/-- `InvalidRewriteSubstitutionKind`, `/repo/xdvdfs-core/src/write/fs/remap.rs:28-32`. -/
inductive SubstKind where
  | nonDigit
  | unclosed
  deriving DecidableEq, Repr

/-- `char::to_digit(10)`. Called at `/repo/xdvdfs-core/src/write/fs/remap.rs:133`. -/
def toDigit10 (c : Char) : Option Nat :=
  if '0'.toNat ≤ c.toNat ∧ c.toNat ≤ '9'.toNat then some (c.toNat - '0'.toNat) else none

/-- The loop of `find_match_indices`, `/repo/xdvdfs-core/src/write/fs/remap.rs:111-158`.  `len` is
`rewrite.len()`; a number that does not fit `usize` overflows. -/
def braceLoop (len : Nat) : Str → Nat → Nat → Bool → List Nat → Res (Except (Nat × SubstKind) (List Nat))
  | [], _, _, matching, acc => if matching then .ok (.error (len - 1, .unclosed)) else .ok (.ok acc)
  | c :: cs, idx, mi, matching, acc =>
    if c = '{' then braceLoop len cs (idx + 1) mi true acc
    else if !matching then braceLoop len cs (idx + 1) mi matching acc
    else if c = '}' then braceLoop len cs (idx + 1) 0 false (acc ++ [mi])
    else match toDigit10 c with
      | some d => if 2 ^ 64 ≤ mi * 10 + d then .panic else braceLoop len cs (idx + 1) (mi * 10 + d) matching acc
      | none => .ok (.error (idx, .nonDigit))

/-- `find_match_indices`, `/repo/xdvdfs-core/src/write/fs/remap.rs:108-159`. -/
def findMatchIndices (rewrite : Str) : Res (Except (Nat × SubstKind) (List Nat)) :=
  braceLoop ((rewrite.map Char.utf8Size).sum) rewrite 0 0 false []

/-- `str::replace` for a non-empty pattern: every occurrence, from the left, without overlap. The first argument
counts the characters of a match still to be skipped. Called at `/repo/xdvdfs-core/src/write/fs/remap.rs:236`. -/
def replaceLoop (pat rep : Str) : Nat → Str → Str
  | _, [] => []
  | 0, c :: cs => if pat.isPrefixOf (c :: cs) then rep ++ replaceLoop pat rep (pat.length - 1) cs
    else c :: replaceLoop pat rep 0 cs
  | k + 1, _ :: cs => replaceLoop pat rep k cs

/-- `str::replace`. Called at `/repo/xdvdfs-core/src/write/fs/remap.rs:236`. -/
def strReplace (pat rep s : Str) : Str := replaceLoop pat rep 0 s

/-- The texts captured by a matched glob: `MatchedText::get`. Called at
`/repo/xdvdfs-core/src/write/fs/remap.rs:235`. -/
abbrev Captures := Nat → Option Str

/-- A built glob: `matched` on a candidate path. Called at `/repo/xdvdfs-core/src/write/fs/remap.rs:216`. -/
abbrev Glob := Str → Option Captures

/-- A glob engine: `Glob::new`. Called at `/repo/xdvdfs-core/src/write/fs/remap.rs:171`. -/
abbrev GlobEngine := Str → Option Glob

/-- `format!("{{{index}}}")`, `/repo/xdvdfs-core/src/write/fs/remap.rs:236`. -/
def placeholder (index : Nat) : Str := '{' :: (Nat.toDigits 10 index ++ ['}'])

/-- The substitution loop, `/repo/xdvdfs-core/src/write/fs/remap.rs:233-237`. -/
def substAll (caps : Captures) : List Nat → Str → Str
  | [], rewrite => rewrite
  | i :: is, rewrite => substAll caps is (strReplace (placeholder i) ((caps i).getD []) rewrite)

/-- `trim_start_matches(c)`. Called at `/repo/xdvdfs-core/src/write/fs/remap.rs:171`,
`/repo/xdvdfs-core/src/write/fs/remap.rs:248-249`. -/
def trimStart (c : Char) : Str → Str
  | d :: ds => if d = c then trimStart c ds else d :: ds
  | [] => []

/-- `trim_end_matches(c)`. Called at `/repo/xdvdfs-core/src/write/fs/remap.rs:243`. -/
def trimEnd (c : Char) (s : Str) : Str := (trimStart c s.reverse).reverse

/-- The path a matching rule gives, `/repo/xdvdfs-core/src/write/fs/remap.rs:232-252`: `rewrite` is the
right-hand side of the rule, `caps` what its glob captured, `suffix` the rest of the host path below the
part that matched. -/
def rewriteTarget (rewrite : Str) (caps : Captures) (suffix : Path) : Res Path := do
  match ← findMatchIndices rewrite with
  | .error _ => .err .other
  | .ok indices =>
    let rewrite := substAll caps indices rewrite
    let rewrite := if suffix = [] then rewrite else trimEnd '/' rewrite ++ pathAsString suffix
    pure (pathFromIter (splitSlash (trimStart '/' (trimStart '.' rewrite))))

/-- A rule with its glob: the left-hand side, the right-hand side, and the glob built from the left-hand side
without leading exclamation marks. `/repo/xdvdfs-core/src/write/fs/remap.rs:168-174`,
`/repo/xdvdfs-core/src/write/fs/remap.rs:211-232`. -/
structure BuiltRule where
  lhs : Str
  rhs : Str
  glob : Glob

/-- Building the globs, `/repo/xdvdfs-core/src/write/fs/remap.rs:168-176`. -/
def buildRules (G : GlobEngine) : List (Str × Str) → Res (List BuiltRule)
  | [] => .ok []
  | (lhs, rhs) :: rest =>
    match G (trimStart '!' lhs) with
    | none => .err .other
    | some g => do
      let rest ← buildRules G rest
      pure (⟨lhs, rhs, g⟩ :: rest)

/-- The text of a host path that globs are matched against,
`/repo/xdvdfs-core/src/write/fs/remap.rs:188, 212-215`. -/
def candidate (p : Path) : Str := trimSlashes (pathAsString p)

/-- `all_globs.is_match`, `/repo/xdvdfs-core/src/write/fs/remap.rs:188`. -/
def anyMatch (rules : List BuiltRule) (p : Path) : Bool := rules.any (fun r => (r.glob (candidate p)).isSome)

/-- The entries of one directory, `/repo/xdvdfs-core/src/write/fs/remap.rs:186-203`: the directories to
push and the matches, in order. -/
def remapEntries (rules : List BuiltRule) (dir : Path) (parent : Option Path) :
    List FileEntry → List (Path × Option Path) × List (Path × FileEntry × Path)
  | [] => ([], [])
  | e :: es =>
    let path := fromBase dir e.name
    let pre := if anyMatch rules path then some path else parent
    let (dirs, ms) := remapEntries rules dir parent es
    (if e.isDir then (path, pre) :: dirs else dirs,
      match pre with
      | some p => (path, e, p) :: ms
      | none => ms)

/-- The walk of the host, `/repo/xdvdfs-core/src/write/fs/remap.rs:178-204`.  The head of the stack is the
end of the Rust vector. -/
def remapWalk (rules : List BuiltRule) (readDir : Path → Res (List FileEntry)) :
    Nat → List (Path × Option Path) → List (Path × FileEntry × Path) → Res (List (Path × FileEntry × Path))
  | _, [], acc => .ok acc
  | 0, _ :: _, _ => .hang
  | fuel + 1, (dir, pre) :: stack, acc => do
    let listing ← readDir dir
    let (dirs, ms) := remapEntries rules dir pre listing
    remapWalk rules readDir fuel (dirs.reverse ++ stack) (acc ++ ms)

/-- The loop over the rules for one match, `/repo/xdvdfs-core/src/write/fs/remap.rs:209-253`. -/
def evalRules (pre suffix : Path) : List BuiltRule → Option Path → Res (Option Path)
  | [], cur => .ok cur
  | r :: rs, cur =>
    match r.glob (candidate pre) with
    | none => evalRules pre suffix rs cur
    | some caps =>
      if r.lhs.head? = some '!' then evalRules pre suffix rs none
      else if cur.isSome then evalRules pre suffix rs cur
      else do
        let q ← rewriteTarget r.rhs caps suffix
        evalRules pre suffix rs (some q)

/-- `MapEntry`, `/repo/xdvdfs-core/src/write/fs/remap.rs:21-26`. -/
structure MapEntry where
  hostPath : Path
  hostEntry : FileEntry
  isPrefixDir : Bool
  deriving DecidableEq

/-- Inserting one rewritten path, `/repo/xdvdfs-core/src/write/fs/remap.rs:256-281`. -/
def insertChain (path : Path) (entry : FileEntry) : Path → Trie MapEntry → Res (Trie MapEntry)
  | [], t => .ok t
  | [c], t => Trie.insertTailWith ⟨path, entry, false⟩ .ok c t
  | c :: d :: ds, t => Trie.insertTailWith ⟨path, ⟨c, true, 0⟩, true⟩ (insertChain path entry (d :: ds)) c t

/-- The loop over the matches, `/repo/xdvdfs-core/src/write/fs/remap.rs:206-282`. -/
def insertMatches (rules : List BuiltRule) : List (Path × FileEntry × Path) → Trie MapEntry → Res (Trie MapEntry)
  | [], t => .ok t
  | (path, entry, pre) :: rest, t => do
    let suffix ← pathSuffix path pre
    match ← evalRules pre suffix rules none with
    | none => insertMatches rules rest t
    | some q =>
      let t ← insertChain path entry q t
      insertMatches rules rest t

/-- `RemapOverlayFilesystem::new`, `/repo/xdvdfs-core/src/write/fs/remap.rs:161-285`: the index from image
paths to host paths. -/
def remapNew (G : GlobEngine) (cfg : List (Str × Str)) (readDir : Path → Res (List FileEntry)) (fuel : Nat) :
    Res (Trie MapEntry) := do
  let rules ← buildRules G cfg
  let ms ← remapWalk rules readDir fuel [([], none)] []
  insertMatches rules ms Trie.empty

/-- `read_dir`, `/repo/xdvdfs-core/src/write/fs/remap.rs:320-338`. -/
def remapReadDir (t : Trie MapEntry) (fuel : Nat) (p : Path) : Res (List FileEntry) := do
  match ← t.lookupSubdir p with
  | none => .err .doesNotExist
  | some sub => do
    let items ← sub.iter fuel
    pure (items.map (fun x => ⟨x.1, x.2.hostEntry.isDir, x.2.hostEntry.len⟩))

/-- `copy_file_in`, `/repo/xdvdfs-core/src/write/fs/remap.rs:350-366`, on top of the copying of the host
file system. -/
def remapCopy (t : Trie MapEntry) (copy : Path → (off size : Nat) → List Bytes × Res Nat) (p : Path)
    (off size : Nat) : List Bytes × Res Nat :=
  match t.get p with
  | .ok (some m) => copy m.hostPath off size
  | .ok none => ([], .err .doesNotExist)
  | .err e => ([], .err e)
  | .panic => ([], .panic)
  | .hang => ([], .hang)

/-- The overlay as a pack source, `/repo/xdvdfs-core/src/write/fs/remap.rs:313-367`. -/
def remapFs (host : SourceFs) (t : Trie MapEntry) (fuel : Nat) : SourceFs where
  readDir := remapReadDir t fuel
  pathToString := pathAsString
  copy := remapCopy t host.copy

/-- One listing of `dump`, `/repo/xdvdfs-core/src/write/fs/remap.rs:296-306`: the pairs to output and the
directories to push, in order. -/
def dumpEntries (dir : Path) : List (Str × MapEntry) → List (Path × Path) × List Path
  | [] => ([], [])
  | (name, m) :: rest =>
    let path := fromBase dir name
    let (out, dirs) := dumpEntries dir rest
    (if m.isPrefixDir then out else (m.hostPath, path) :: out, if m.hostEntry.isDir then path :: dirs else dirs)

/-- `dump`, `/repo/xdvdfs-core/src/write/fs/remap.rs:287-310`: pairs of a host path and an image path.  The
head of the queue is the end of the Rust vector. -/
def dumpLoop (t : Trie MapEntry) (ifuel : Nat) : Nat → List Path → List (Path × Path) → Res (List (Path × Path))
  | _, [], out => .ok out
  | 0, _ :: _, _ => .hang
  | fuel + 1, path :: queue, out => do
    match ← t.lookupSubdir path with
    | none => .panic
    | some sub => do
      let items ← sub.iter ifuel
      let (o, dirs) := dumpEntries path items
      dumpLoop t ifuel fuel (dirs.reverse ++ queue) (out ++ o)

/-- `/repo/xdvdfs-core/src/write/fs/remap.rs:287-310`. -/
def remapDump (t : Trie MapEntry) (fuel : Nat) : Res (List (Path × Path)) := dumpLoop t fuel fuel [[]] []

end Xdvdfs
