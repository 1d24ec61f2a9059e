import Verif.Model.Pack
import Verif.Proof.TableMain

/-!
# Packing as a plan: device-independent part of image creation
-/

namespace Xdvdfs

open TabWriter Spec PM

/-- What packing does to the outside world. -/
inductive Op where
  | report (p : Progress)
  | write (off : Nat) (data : Bytes)
  | copy (path : Path) (out size : Nat)

def Op.run (env : PackEnv σ) : Op → PM σ Unit
  | .report p => PM.report p
  | .write off d => onDev (env.write off d)
  | .copy p o n => do
    let _ ← onDev (env.copyIn p 0 o n)
    pure ()

def runOps (env : PackEnv σ) : List Op → PM σ Unit
  | [] => pure ()
  | o :: os => do
    o.run env
    runOps env os

/-- Operations performed, then an outcome. -/
structure Pl (α : Type) where
  ops : List Op
  res : Res α

namespace Pl

protected def pure (a : α) : Pl α := ⟨[], .ok a⟩

protected def bind (x : Pl α) (f : α → Pl β) : Pl β :=
  match x.res with
  | .ok a => ⟨x.ops ++ (f a).ops, (f a).res⟩
  | .err e => ⟨x.ops, .err e⟩
  | .panic => ⟨x.ops, .panic⟩
  | .hang => ⟨x.ops, .hang⟩

instance : Monad Pl where
  pure := Pl.pure
  bind := Pl.bind

def lift (r : Res α) : Pl α := ⟨[], r⟩
def op (o : Op) : Pl Unit := ⟨[o], .ok ()⟩

def run (env : PackEnv σ) (x : Pl α) : PM σ α := do
  runOps env x.ops
  PM.lift x.res

end Pl

theorem PM.ext {x y : PM σ α} (h : ∀ s, x s = y s) : x = y := funext h

theorem PM.bind_def (x : PM σ α) (f : α → PM σ β) (s : PackState σ) :
    (x >>= f) s = match x s with
      | (.ok a, s') => f a s'
      | (.err e, s') => (.err e, s')
      | (.panic, s') => (.panic, s')
      | (.hang, s') => (.hang, s') := rfl

theorem PM.pure_def (a : α) (s : PackState σ) : (pure a : PM σ α) s = (.ok a, s) := rfl

theorem PM.bind_assoc (x : PM σ α) (f : α → PM σ β) (g : β → PM σ γ) :
    (x >>= f) >>= g = x >>= fun a => f a >>= g := by
  apply PM.ext; intro s
  simp only [PM.bind_def]
  rcases x s with ⟨r, s'⟩
  cases r <;> rfl

theorem PM.pure_bind (a : α) (f : α → PM σ β) : (pure a : PM σ α) >>= f = f a := rfl

theorem PM.bind_pure (x : PM σ Unit) : (x >>= fun _ => pure ()) = x := by
  apply PM.ext; intro s
  simp only [PM.bind_def]
  rcases x s with ⟨r, s'⟩
  cases r <;> rfl

theorem runOps_append (env : PackEnv σ) (a b : List Op) :
    runOps env (a ++ b) = (do runOps env a; runOps env b) := by
  induction a with
  | nil => rfl
  | cons o os ih => simp only [List.cons_append, runOps, ih, PM.bind_assoc]

theorem Pl.run_bind (env : PackEnv σ) (x : Pl α) (f : α → Pl β) :
    (x >>= f).run env = (x.run env >>= fun a => (f a).run env) := by
  obtain ⟨ops, res⟩ := x
  show (Pl.bind ⟨ops, res⟩ f).run env = _
  unfold Pl.bind Pl.run
  rw [PM.bind_assoc]
  cases res with
  | ok a =>
    show (do runOps env (ops ++ (f a).ops); PM.lift _) = _
    rw [runOps_append, PM.bind_assoc]; rfl
  | err e => rfl
  | panic => rfl
  | hang => rfl

theorem Pl.run_pure (env : PackEnv σ) (a : α) : (pure a : Pl α).run env = pure a := rfl
theorem Pl.run_lift (env : PackEnv σ) (r : Res α) : (Pl.lift r).run env = PM.lift r := rfl
theorem Pl.run_op (env : PackEnv σ) (o : Op) : (Pl.op o).run env = o.run env := by
  show (do (do o.run env; pure ()); PM.lift (.ok ())) = _
  rw [PM.bind_assoc]
  exact PM.bind_pure _

/-! ## The planned versions of the packing functions -/

abbrev ReadDir := Path → Res (List FileEntry)

def dirTreeLoopP (rd : ReadDir) : Nat → List Path → List (Path × List FileEntry) →
    Pl (List (Path × List FileEntry))
  | _, [], out => pure out.reverse
  | 0, _ :: _, _ => Pl.lift .hang
  | fuel + 1, dir :: dirs, out => do
    let listing ← Pl.lift (rd dir)
    Pl.op (.report (.discoveredDirectory listing.length))
    dirTreeLoopP rd fuel ((subdirPaths dir listing).reverse ++ dirs) ((dir, listing) :: out)

def createDirentTablesP (dirtree : List (Path × List FileEntry)) : Pl (PathMap TabWriter) := do
  let tables ← Pl.lift (tablesLoop dirtree.reverse [])
  Pl.op (.report (.fileCount (dirtree.map (fun d => d.2.length)).sum))
  Pl.op (.report (.dirCount dirtree.length))
  pure tables

/-- One directory with its table and its place. -/
structure Rec where
  path : Path
  w : TabWriter
  sector : Nat
  r : DiskRepr

/-- The entry sectors recorded while a listing is written. -/
def addSubs (path : Path) (ds : PathMap Nat) : List Listing → PathMap Nat
  | [] => ds
  | l :: ls => addSubs path (if l.isDir then ds.insert (fromBase path l.name) l.sector else ds) ls

def opsEntry (pts : Path → Str) (path : Path) (l : Listing) : List Op :=
  .report (.fileAdded (pts (fromBase path l.name)) l.sector) ::
    (if l.isDir then [] else [.copy (fromBase path l.name) (l.sector * sectorSize) l.size])

def opsRec (pts : Path → Str) (x : Rec) : List Op :=
  .report (.dirAdded (pts x.path) x.sector) :: .write (x.sector * sectorSize) x.r.entryTable ::
    x.r.fileListing.flatMap (opsEntry pts x.path)

def packDirsP (pts : Path → Str) : PathMap TabWriter → PathMap Nat → Nat → Pl Unit
  | [], _, _ => pure ()
  | (path, w) :: rest, ds, next => do
    let sector ← Pl.lift (Res.unwrap (ds.get path))
    let (repr, next) ← Pl.lift (w.diskRepr next)
    (⟨opsRec pts ⟨path, w, sector, repr⟩, .ok ()⟩ : Pl Unit)
    packDirsP pts rest (addSubs path ds repr.fileListing) next

def rootDesc (rootSector rootSize : Nat) : Bytes :=
  (VolDesc.new ⟨UInt32.ofNat rootSector, UInt32.ofNat rootSize⟩).ser

def createP (rd : ReadDir) (pts : Path → Str) (fuel : Nat) : Pl Unit := do
  let dirtree ← dirTreeLoopP rd fuel [[]] []
  let tables ← createDirentTablesP dirtree
  let (rootPath, rootTab) ← Pl.lift (Res.unwrap tables.head?)
  let rootSize ← Pl.lift rootTab.dirtabSize
  let (rootSector, next) ← Pl.lift (allocate allocInit rootSize)
  packDirsP pts tables (PathMap.insert rootPath rootSector []) next
  Pl.op (.write (32 * sectorSize) (rootDesc rootSector rootSize))

/-! ## They perform the same operations -/

theorem dirTreeLoop_eq (env : PackEnv σ) : ∀ fuel stack out,
    dirTreeLoop env fuel stack out = (dirTreeLoopP env.readDir fuel stack out).run env := by
  intro fuel
  induction fuel with
  | zero => intro stack out; cases stack <;> rfl
  | succ fuel ih =>
    intro stack out
    cases stack with
    | nil => rfl
    | cons d ds =>
      simp only [dirTreeLoop, dirTreeLoopP, Pl.run_bind, Pl.run_lift, Pl.run_op, ih]
      rfl

theorem createDirentTables_eq (env : PackEnv σ) (D) :
    createDirentTables D = (createDirentTablesP D).run env := by
  simp only [createDirentTables, createDirentTablesP, Pl.run_bind, Pl.run_lift, Pl.run_op, Pl.run_pure]
  rfl

theorem packListing_eq (env : PackEnv σ) (path : Path) : ∀ (ls : List Listing) (ds : PathMap Nat),
    packListing env path ds ls = (do
      runOps env (ls.flatMap (opsEntry env.pathToString path))
      pure (addSubs path ds ls)) := by
  intro ls
  induction ls with
  | nil => intro ds; rfl
  | cons l ls ih =>
    intro ds
    simp only [packListing, List.flatMap_cons, runOps_append, PM.bind_assoc, opsEntry, runOps, addSubs]
    cases h : l.isDir with
    | true => simp only [ih, if_true, runOps, PM.pure_bind]; rfl
    | false =>
      simp only [ih, Bool.false_eq_true, if_false, runOps, PM.bind_assoc, PM.pure_bind, Op.run]

theorem packDirs_eq (env : PackEnv σ) : ∀ (tables : PathMap TabWriter) (ds : PathMap Nat) (next : Nat),
    packDirs env tables ds next = (packDirsP env.pathToString tables ds next).run env := by
  intro tables
  induction tables with
  | nil => intro ds next; rfl
  | cons x rest ih =>
    obtain ⟨path, w⟩ := x
    intro ds next
    simp only [packDirs, packDirsP, Pl.run_bind, Pl.run_lift, packListing_eq, ih, PM.bind_assoc,
      PM.pure_bind]
    congr 1; funext sector; congr 1; funext y
    obtain ⟨repr, next'⟩ := y
    simp only [Pl.run_bind, PM.bind_assoc, Pl.run, opsRec, runOps, Op.run]
    rfl

theorem createImage_eq (env : PackEnv σ) (fuel : Nat) :
    createImage env fuel = (do
      (createP env.readDir env.pathToString fuel).run env
      padImage env
      PM.report .finishedPacking) := by
  simp only [createImage, createFrom, createP, dirTree, dirTreeLoop_eq, createDirentTables_eq env, packDirs_eq,
    Pl.run_bind, Pl.run_lift, PM.bind_assoc, Pl.run_op, Op.run, rootDesc]

end Xdvdfs
