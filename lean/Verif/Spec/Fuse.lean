import Verif.Model.Fuse
import Verif.Spec.Pack

/-!
# Specification vocabulary for mounted images
-/

namespace Xdvdfs.Spec

/-- The `j`-th entry that scanning a directory delivers, starting from the scan position `s`. -/
def nthEntry (m : Mount) : Nat → Scan → Option DirEnt
  | 0, s => match s.next m.dev m.fuel with
    | .ok (some d, _) => some d
    | _ => none
  | j + 1, s => match s.next m.dev m.fuel with
    | .ok (some _, s) => nthEntry m j s
    | _ => none

/-- The `j`-th entry that scanning the table `tab` delivers. -/
def tableEntry (m : Mount) (tab : Region) (j : Nat) : Option DirEnt :=
  match scanInit m.dev tab with
  | .ok s => nthEntry m j s
  | _ => none

/-- Answering the request `op` with `reply` in the state `c` tells the client that the directory entry `d`
has the number `i`: either a name was looked up and `d` was found, or a directory was listed and the record
of its `j`-th entry `d` is in the reply.  (Records are numbered by their resume offsets; the first two are
`.` and `..`.) -/
inductive Tells (m : Mount) (c : FuseCache) : FuseOp → FuseReply → Nat → DirEnt → Prop
  | lookup {parent name tab d a} : c.table m.root parent = some tab → walkPath m.dev tab name m.fuel = .ok d →
      Tells m c (.lookup parent (some name)) (.entry a) a.ino d
  | readdir {ino offset full tab recs r j d} : c.table m.root ino = some tab → tableEntry m tab j = some d →
      r ∈ recs → r.next = j + 3 → Tells m c (.readdir ino offset full) (.dir recs) r.ino d

/-- At some point of the history `ops`, which starts with an empty cache, the client was told that `d` has
the number `i`. -/
def Told (m : Mount) (ops : List FuseOp) (i : Nat) (d : DirEnt) : Prop :=
  ∃ ops1 op ops2 rs c r c', ops = ops1 ++ op :: ops2 ∧ fuseRun m .new ops1 = .ok (rs, c) ∧
    fuseStep m c op = .ok (r, c') ∧ Tells m c op r i d

/-- Name and kind of a record. -/
def recKey (r : DirRec) : Str × Bool := (r.name, r.isDir)

/-- The names and kinds a directory with the entries `ds` should be listed with. -/
def fullListing (ds : List DirEnt) : List (Str × Bool) :=
  (['.'], true) :: (['.', '.'], true) :: ds.map (fun d => (d.nameStr, d.node.dirent.isDirectory))

/-- A client reads the directory `ino` from `offset` to the end, in any number of calls, each with any
buffer that has room for at least one record, each resuming at the offset of the last record delivered,
with any other requests in between; `recs` are all the records delivered.  The end is a reply without
records. -/
inductive ReadsDir (m : Mount) (ino : Nat) : FuseCache → Nat → List DirRec → Prop
  | done {c o full c'} : (∀ r, full [] r = false) →
      fuseStep m c (.readdir ino (o : Nat) full) = .ok (.dir [], c') → ReadsDir m ino c o []
  | more {c o full c' recs r ops rs c'' rest} : (∀ r, full [] r = false) →
      fuseStep m c (.readdir ino (o : Nat) full) = .ok (.dir recs, c') → recs.getLast? = some r →
      fuseRun m c' ops = .ok (rs, c'') → ReadsDir m ino c'' r.next rest → ReadsDir m ino c o (recs ++ rest)

/-- Looking up a path component by component, starting at the inode `ino`; the attributes of the last
component. -/
def resolvePath (m : Mount) (c : FuseCache) (ino : Nat) : Path → Res (Option FuseAttr × FuseCache)
  | [] => .ok (none, c)
  | n :: ns => do
    let r ← fuseStep m c (.lookup ino (some n))
    match r.1 with
    | .entry a => if ns = [] then pure (some a, r.2) else resolvePath m r.2 a.ino ns
    | _ => pure (none, r.2)

end Xdvdfs.Spec
