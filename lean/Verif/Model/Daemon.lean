import Verif.Model.CliPaths
import Verif.Model.Fuse
import Verif.Model.MountOpts

/-!
# The mount program: `/repo/xdvdfs-fsd/src/main.rs` and `/repo/xdvdfs-fsd/src/daemonize.rs`

On Linux.  The program checks its arguments, then forks (unless told not to).  The two processes run side by side and
share a pipe: the parent waits until it can read from the pipe or until nobody can write to it any more, the child opens
the image, writes to the pipe and mounts.  Either process can be killed at any time.  A process that ends closes its ends
of the pipe, and a write to a pipe that nobody can read fails (`EPIPE`; Rust programs ignore `SIGPIPE`).
-/

namespace Xdvdfs

/-- What the program finds: the bytes of the image, whether it is told to fork, whether the runtime can be made
(`/repo/xdvdfs-fsd/src/main.rs:113`), and whether the system mounts (`:118`).  `fuel` bounds the loops in the reader. -/
structure MountJob where
  image : Bytes
  fork : Bool
  runtime : Bool
  mounts : Bool
  fuel : Nat

/-- Where the process that serves the image is. With a fork, this is the child. Follows
`/repo/xdvdfs-fsd/src/main.rs:99-120`, `/repo/xdvdfs-fsd/src/daemonize.rs:9-66`. -/
inductive ServerAt where
  /-- Just forked: both ends of the pipe are open. -/
  | forked
  /-- `Daemonize::fork` has returned, `/repo/xdvdfs-fsd/src/daemonize.rs:55-58`. -/
  | started
  /-- `FuseFilesystem::new` has returned, `/repo/xdvdfs-fsd/src/main.rs:114`. -/
  | opened (m : Mount) (c : FuseCache)
  /-- The image could not be opened: the function returns, or unwinds after a panic, and the handle is about to be
  dropped, `/repo/xdvdfs-fsd/src/daemonize.rs:11-17`.  `status` is what the process will exit with. -/
  | failing (status : Nat)
  /-- The handle is gone, `/repo/xdvdfs-fsd/src/main.rs:115-117`. -/
  | told (m : Mount) (c : FuseCache)
  /-- The handle was dropped after a failure; the process exits next. -/
  | leaving (status : Nat)
  /-- `fuser::mount2` serves requests, `/repo/xdvdfs-fsd/src/main.rs:118`. -/
  | serving (m : Mount) (c : FuseCache)
  /-- A request does not end; the process does nothing else any more. -/
  | stuck
  | exited (status : Nat)
  | killed

/-- Where the parent is. `/repo/xdvdfs-fsd/src/daemonize.rs:47-54`. -/
inductive ParentAt where
  /-- There is none: the program was told not to fork. -/
  | absent
  /-- Just forked: both ends of the pipe are open, `/repo/xdvdfs-fsd/src/daemonize.rs:47-48`. -/
  | forked
  /-- In `read`, `/repo/xdvdfs-fsd/src/daemonize.rs:51`. -/
  | waiting
  | exited (status : Nat)
  | killed
  deriving DecidableEq

/-- Both processes, and the number of bytes in the pipe. Follows `/repo/xdvdfs-fsd/src/main.rs:99-120`,
`/repo/xdvdfs-fsd/src/daemonize.rs:9-66`. -/
structure MountState where
  parent : ParentAt
  server : ServerAt
  pipe : Nat

/-- What can happen next. Follows `/repo/xdvdfs-fsd/src/main.rs:99-120`,
`/repo/xdvdfs-fsd/src/daemonize.rs:9-66`. -/
inductive MountEvent where
  | parent
  | server
  | request (op : FuseOp)
  | unmount
  | killParent
  | killServer

/-- The reading end is open. Closed at `/repo/xdvdfs-fsd/src/daemonize.rs:52`,
`/repo/xdvdfs-fsd/src/daemonize.rs:56`, or at exit. -/
def MountState.readable (s : MountState) : Bool :=
  (match s.parent with | .forked => true | .waiting => true | _ => false) ||
  (match s.server with | .forked => true | _ => false)

/-- The writing end is open. `finish` consumes the handle, so that the writing end of the child is closed when
it returns. `/repo/xdvdfs-fsd/src/daemonize.rs:49`, `/repo/xdvdfs-fsd/src/daemonize.rs:20-28`. -/
def MountState.writable (s : MountState) : Bool :=
  (match s.parent with | .forked => true | _ => false) ||
  (match s.server with
    | .forked => true
    | .started => true
    | .opened _ _ => true
    | .failing _ => true
    | _ => false)

/-- The status of a process that panics. Panics at `/repo/xdvdfs-fsd/src/daemonize.rs:14`,
`/repo/xdvdfs-fsd/src/main.rs:123`, or in a request. -/
def panicStatus : Nat := 101

/-- The parent, `/repo/xdvdfs-fsd/src/daemonize.rs:47-54`: whatever `read` returns, the status is 0. -/
def parentStep (s : MountState) : Option MountState :=
  match s.parent with
  | .forked => some { s with parent := .waiting }
  | .waiting =>
    if 0 < s.pipe then some { s with parent := .exited 0, pipe := s.pipe - 1 }
    else if s.writable then none
    else some { s with parent := .exited 0 }
  | _ => none

/-- The serving process, `/repo/xdvdfs-fsd/src/main.rs:113-119`, with `finish` and `drop`,
`/repo/xdvdfs-fsd/src/daemonize.rs:11-29`.  When `finish` fails, the handle is dropped, which tries again and panics. -/
def serverStep (j : MountJob) (s : MountState) : Option MountState :=
  match s.server with
  | .forked => some { s with server := .started }
  | .started =>
    if j.runtime then
      match mountImage (fileDev j.image) j.fuel with
      | .ok (m, c) => some { s with server := .opened m c }
      | .err _ => some { s with server := .failing 1 }
      | .panic => some { s with server := .failing panicStatus }
      | .hang => none
    else some { s with server := .failing 1 }
  | .opened m c =>
    if s.parent = .absent then some { s with server := .told m c }
    else if s.readable then some { s with server := .told m c, pipe := s.pipe + 1 }
    else some { s with server := .leaving panicStatus }
  | .failing status =>
    if s.parent = .absent then some { s with server := .leaving status }
    else if s.readable then some { s with server := .leaving status, pipe := s.pipe + 1 }
    else some { s with server := .leaving panicStatus }
  | .told m c => some { s with server := if j.mounts then .serving m c else .leaving 1 }
  | .leaving status => some { s with server := .exited status }
  | _ => none

/-- A request to the mounted image. `fuser` serves one at a time and does not catch panics. Started at
`/repo/xdvdfs-fsd/src/main.rs:118`. -/
def requestStep (s : MountState) (op : FuseOp) : Option MountState :=
  match s.server with
  | .serving m c =>
    match fuseStep m c op with
    | .ok (_, c) => some { s with server := .serving m c }
    | .err _ => some { s with server := .serving m c }
    | .panic => some { s with server := .leaving panicStatus }
    | .hang => some { s with server := .stuck }
  | _ => none

/-- A process that runs can be killed. Follows `/repo/xdvdfs-fsd/src/main.rs:99-120`,
`/repo/xdvdfs-fsd/src/daemonize.rs:9-66`. -/
def ServerAt.alive : ServerAt → Bool
  | .exited _ => false
  | .killed => false
  | _ => true

/-- A process that runs can be killed. Follows `/repo/xdvdfs-fsd/src/main.rs:99-120`,
`/repo/xdvdfs-fsd/src/daemonize.rs:9-66`. -/
def ParentAt.alive : ParentAt → Bool
  | .forked => true
  | .waiting => true
  | _ => false

/-- One event; `none` if it cannot happen.  When the image is unmounted `mount2` returns, and the process exits with
status 0, `/repo/xdvdfs-fsd/src/main.rs:118-119`. -/
def mountStep (j : MountJob) (s : MountState) : MountEvent → Option MountState
  | .parent => parentStep s
  | .server => serverStep j s
  | .request op => requestStep s op
  | .unmount => match s.server with
    | .serving _ _ => some { s with server := .leaving 0 }
    | _ => none
  | .killParent => if s.parent.alive then some { s with parent := .killed } else none
  | .killServer => if s.server.alive then some { s with server := .killed } else none

/-- A history of events; `none` if one of them could not happen. Follows `/repo/xdvdfs-fsd/src/main.rs:99-120`,
`/repo/xdvdfs-fsd/src/daemonize.rs:9-66`. -/
def runMount (j : MountJob) : List MountEvent → MountState → Option MountState
  | [], s => some s
  | e :: es, s =>
    match mountStep j s e with
    | some s' => runMount j es s'
    | none => none

/-- The start of `mount_image_file` after the options were read, `/repo/xdvdfs-fsd/src/main.rs:107-111`.  Simplified:
making the pipe and forking succeed. -/
def MountJob.start (j : MountJob) : MountState :=
  if j.fork then ⟨.forked, .forked, 0⟩ else ⟨.absent, .started, 0⟩

/-- What the checks at the start come to. `/repo/xdvdfs-fsd/src/main.rs:126-147`. -/
inductive MountStart where
  | exits (status : Nat)
  | runs (j : MountJob) (opts : List MountOpt)

/-- `run_mount_program` up to the fork, `/repo/xdvdfs-fsd/src/main.rs:126-147` and `:105`, and `main`, lines 149-158.
`mount_pack_overlay` (`:122-124`) panics.  Files are readable, and no other kinds of files exist. -/
def mountProgram (h : Host) (fs : HostFs) (runtime mounts : Bool) (fuel : Nat) (source mountPoint : Str)
    (args : List Str) : MountStart :=
  match h.stat fs mountPoint with
  | some (_, .dir) =>
    match h.stat fs source with
    | some (p, .file img) =>
      match convertMountOpts (pathStr p) args with
      | some (fork, opts) => .runs ⟨img, fork, runtime, mounts, fuel⟩ opts
      | none => .exits 1
    | some (_, .dir) => .exits panicStatus
    | none => .exits 1
  | _ => .exits 1

end Xdvdfs
