import Verif.Model.WebUi

/-!
# The application: three pages in tabs

`/repo/xdvdfs-web/src/main.rs`: the pages "Pack", "Unpack" and "Compress" are the panels of three tabs.  The panels of
the tabs that are not selected stay alive (the component `Tabs` of the library only hides them), so a job of one page can
run while another page is used.

In the browser version the reports of a job are calls of functions of its own page (`/repo/xdvdfs-web/src/ops/browser.rs`).
In the desktop version they are events of the window: `/repo/xdvdfs-web/src/ops/tauri.js` listens to the events
`progress_callback` and `compress_callback` while a job runs, and the commands in `/repo/xdvdfs-desktop/src/` send them to
the window.  Every job that listens hears them.
-/

namespace Xdvdfs

/-- `XisoTool`, `/repo/xdvdfs-web/src/main.rs:18-23`. -/
inductive AppTab where
  | pack
  | unpack
  | compress
  deriving DecidableEq, Repr

/-- The application, `/repo/xdvdfs-web/src/main.rs:27-70`: the tab that is selected, and the pages with their dialogs and
jobs. -/
structure App (F D : Type) where
  shown : AppTab
  pack : UiSys (PackPage F D) (Picked F D × F)
  unpack : UiSys (UnpackPage F D) (F × D)
  comp : UiSys (CompPage F D) (Picked F D × D)

/-- The first state, `/repo/xdvdfs-web/src/main.rs:29`. -/
def App.init (fname : F → Str) (dname : D → Str) : App F D :=
  ⟨.pack, UiSys.init (packDef fname dname), UiSys.init unpackDef, UiSys.init compDef⟩

/-- What can happen next: the user selects a tab; something happens on one of the pages; job `k` of a page sends
the event `progress_callback`; job `k` of the page "Compress" sends the event `compress_callback`. The last two
are for the desktop version. For `/repo/xdvdfs-web/src/main.rs:27-71`. -/
inductive AppEvent (F D : Type) where
  | select (t : AppTab)
  | pack (e : UiEvent (PackMsg F D) F D)
  | unpack (e : UiEvent (UnpackMsg F D) F D)
  | comp (e : UiEvent (CompMsg F D) F D)
  | progress (t : AppTab) (k : Nat) (p : Progress)
  | sectors (k : Nat) (p : CisoProgress)

/-- No dialog is open. For `/repo/xdvdfs-web/src/main.rs:27-71`. -/
def App.noDialog (a : App F D) : Bool := a.pack.dialog.isNone && a.unpack.dialog.isNone && a.comp.dialog.isNone

/-- How many jobs a page has. For `/repo/xdvdfs-web/src/main.rs:27-71`. -/
def App.jobsOf (a : App F D) : AppTab → Nat
  | .pack => a.pack.jobs.length
  | .unpack => a.unpack.jobs.length
  | .compress => a.comp.jobs.length

/-- Whether something can happen on a page: a button can be clicked if its tab is selected and no dialog is open, and in
the desktop version the messages that come with the events of the window come in no other way
(`/repo/xdvdfs-web/src/ops/tauri.rs:38-66`, `:68-91` and `:93-135`). -/
def App.allows (a : App F D) (desktop : Bool) (t : AppTab) (viaWindow : M → Bool) : UiEvent M F D → Bool
  | .click _ => decide (a.shown = t) && a.noDialog
  | .report _ m => !(desktop && viaWindow m)
  | _ => true

/-- The messages of the page "Pack" that come with `progress_callback`, `/repo/xdvdfs-web/src/ops/tauri.rs:49-52`. -/
def packViaWindow : PackMsg F D → Bool
  | .updateProgress _ => true
  | _ => false

/-- The messages of the page "Unpack" that come with `progress_callback`, `/repo/xdvdfs-web/src/ops/tauri.rs:74-77`. -/
def unpackViaWindow : UnpackMsg F D → Bool
  | .updateProgress _ => true
  | _ => false

/-- The messages of the page "Compress" that come with `progress_callback` and `compress_callback`,
`/repo/xdvdfs-web/src/ops/tauri.rs:105-115`. -/
def compViaWindow : CompMsg F D → Bool
  | .updateProgress _ => true
  | .updateCompression _ => true
  | .changeState .compressing => true
  | _ => false

/-- Messages are handled one after the other. For `/repo/xdvdfs-web/src/main.rs:27-71`. -/
def UiSys.deliverAll (d : PageDef S M J F D) : List M → UiSys S J → Res (UiSys S J)
  | [], s => .ok s
  | m :: ms, s => do
    let s ← s.deliver d m
    UiSys.deliverAll d ms s

/-- An event of the window: each job of the page has its own listener, which passes the messages `ms` on to the page,
`/repo/xdvdfs-web/src/ops/tauri.js:5-16`, `:18-29` and `:31-47`.  Simplified: a job listens from its start to its end. -/
def UiSys.hear (d : PageDef S M J F D) (ms : List M) (s : UiSys S J) : Res (UiSys S J) :=
  UiSys.deliverAll d (s.jobs.flatMap fun _ => ms) s

/-- One event. `none` means that it cannot happen. A panic on one page ends the application. For
`/repo/xdvdfs-web/src/main.rs:27-71`. -/
def App.step (desktop : Bool) (fname : F → Str) (dname : D → Str) (a : App F D) :
    AppEvent F D → Option (Res (App F D))
  | .select t => if a.noDialog then some (.ok { a with shown := t }) else none
  | .pack e =>
    if a.allows desktop .pack packViaWindow e then
      (a.pack.step (packDef fname dname) e).map fun r => r.bind fun s => .ok { a with pack := s }
    else none
  | .unpack e =>
    if a.allows desktop .unpack unpackViaWindow e then
      (a.unpack.step unpackDef e).map fun r => r.bind fun s => .ok { a with unpack := s }
    else none
  | .comp e =>
    if a.allows desktop .compress compViaWindow e then
      (a.comp.step compDef e).map fun r => r.bind fun s => .ok { a with comp := s }
    else none
  | .progress t k p =>
    if desktop ∧ k < a.jobsOf t then
      some ((a.pack.hear (packDef fname dname) [.updateProgress p]).bind fun s1 =>
        (a.unpack.hear unpackDef [.updateProgress p]).bind fun s2 =>
        (a.comp.hear compDef [.updateProgress p]).bind fun s3 => .ok { a with pack := s1, unpack := s2, comp := s3 })
    else none
  | .sectors k p =>
    if desktop ∧ k < a.comp.jobs.length then
      some ((a.comp.hear compDef [.changeState .compressing, .updateCompression p]).bind fun s =>
        .ok { a with comp := s })
    else none

/-- A history of events. `none` if one of them could not happen; a panic ends the application. For
`/repo/xdvdfs-web/src/main.rs:27-71`. -/
def runApp (desktop : Bool) (fname : F → Str) (dname : D → Str) : List (AppEvent F D) → App F D → Option (Res (App F D))
  | [], a => some (.ok a)
  | e :: es, a =>
    match a.step desktop fname dname e with
    | some (.ok a') => runApp desktop fname dname es a'
    | other => other

end Xdvdfs
