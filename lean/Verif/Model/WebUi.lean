import Verif.Model.CliPaths

/-!
# The pages of the graphical front ends

`/repo/xdvdfs-web/src/packing.rs`, `unpacking.rs`, `compress.rs` and `picker/mod.rs`: the three pages that both the
browser version and the desktop version show.  Each page is a state machine that is fed with messages: those of the user,
who clicks buttons and chooses files in dialogs, and those of the jobs the page has started, which run beside it.

Handles of files and directories (`F`, `D`) are abstract; a handle has a name.  Counters are `u32` and wrap around, as
in a release build.
-/

namespace Xdvdfs

/-! ## Common to the pages -/

/-- `PickerResult`, `/repo/xdvdfs-web/src/picker/mod.rs:34-38`. -/
inductive Picked (F D : Type) where
  | file (h : F)
  | dir (h : D)
  deriving DecidableEq, Repr

/-- `PickerKind`, `/repo/xdvdfs-web/src/picker/mod.rs:49-54`; the suggested name of a file to save is left out. -/
inductive Dialog where
  | openFile
  | openDirectory
  | saveFile
  deriving DecidableEq, Repr

/-- Whether a dialog can deliver a result, `/repo/xdvdfs-web/src/picker/mod.rs:103-134`. -/
def Dialog.delivers : Dialog → Picked F D → Bool
  | .openDirectory, .dir _ => true
  | .openDirectory, .file _ => false
  | _, .file _ => true
  | _, .dir _ => false

/-- `InputHandleType`, `/repo/xdvdfs-web/src/packing.rs:95-99` and `/repo/xdvdfs-web/src/compress.rs:83-87`. -/
inductive InputKind where
  | directory
  | file
  deriving DecidableEq, Repr

/-- `to_picker_kind`, `/repo/xdvdfs-web/src/packing.rs:102-107` and `/repo/xdvdfs-web/src/compress.rs:90-95`. -/
def InputKind.dialog : InputKind → Dialog
  | .file => .openFile
  | .directory => .openDirectory

/-- The buttons of a page: the input type, and the two that open a dialog.
`/repo/xdvdfs-web/src/packing.rs:222-276`. -/
inductive Button where
  | inputType (k : InputKind)
  | input (d : Dialog)
  | output (d : Dialog)
  deriving DecidableEq, Repr

/-- `ImageCreationState`, `/repo/xdvdfs-web/src/packing.rs:31-36` and `/repo/xdvdfs-web/src/compress.rs:10-15`. -/
inductive ImgStage where
  | creatingFilesystem
  | packingImage
  | waitingForFlush
  deriving DecidableEq, Repr

/-- What a page shows: the buttons that can be clicked, the bar, the two numbers under it, and the error.
`/repo/xdvdfs-web/src/packing.rs:209-312`. -/
structure Shown where
  buttons : List Button
  percent : UInt32
  done : UInt32
  total : UInt32
  error : Option Str
  deriving DecidableEq, Repr

/-- The bar, `/repo/xdvdfs-web/src/packing.rs:211-215`, `unpacking.rs:106-110`, `compress.rs:194-198`. -/
def percent (progress count : UInt32) : UInt32 := if count ≠ 0 then 100 * progress / count else 0

/-! ## The page "Pack" -/

/-- `WorkflowState`, `/repo/xdvdfs-web/src/packing.rs:48-60`. -/
inductive PackStage where
  | selectInputType
  | selectInput
  | selectOutput
  | packing (s : ImgStage)
  | finished
  | error (e : Str)
  deriving DecidableEq, Repr

/-- The order of the states, which `is_at_least` uses, `/repo/xdvdfs-web/src/packing.rs:48` and `:63-65`. -/
def PackStage.rank : PackStage → Nat
  | .selectInputType => 0
  | .selectInput => 1
  | .selectOutput => 2
  | .packing _ => 3
  | .finished => 4
  | .error _ => 5

/-- `is_packing_and(|_| true)`, `/repo/xdvdfs-web/src/packing.rs:67-73`. -/
def PackStage.isPacking : PackStage → Bool
  | .packing _ => true
  | _ => false

/-- The error that is shown, `/repo/xdvdfs-web/src/packing.rs:297-298`. -/
def PackStage.errorText : PackStage → Option Str
  | .error e => some e
  | _ => none

/-- `ImageBuilderWorkflow`, `/repo/xdvdfs-web/src/packing.rs:117-132`. -/
structure PackPage (F D : Type) where
  stage : PackStage
  inputType : Option InputKind
  input : Option (Picked F D)
  output : Option F
  count : UInt32
  progress : UInt32
  name : Option (Str × Nat)
  deriving DecidableEq, Repr

/-- `Default`, `/repo/xdvdfs-web/src/packing.rs:139-152`. -/
def PackPage.init : PackPage F D := ⟨.selectInputType, none, none, none, 0, 0, none⟩

/-- `WorkflowMessage`, `/repo/xdvdfs-web/src/packing.rs:155-162`. -/
inductive PackMsg (F D : Type) where
  | doNothing
  | updateProgress (p : Progress)
  | setInputType (k : InputKind)
  | setInput (p : Picked F D)
  | setOutput (f : F)
  | changeState (s : PackStage)
  deriving DecidableEq, Repr

/-- `reset_state`, `/repo/xdvdfs-web/src/packing.rs:169-187`. -/
def PackPage.reset (p : PackPage F D) (n : Nat) : PackPage F D :=
  { p with
    inputType := if n = 0 then none else p.inputType
    input := if n ≤ 1 then none else p.input
    output := if n ≤ 2 then none else p.output
    count := if n ≤ 3 then 0 else p.count
    progress := if n ≤ 3 then 0 else p.progress
    name := if n ≤ 3 then none else p.name }

/-- The progress reports, `/repo/xdvdfs-web/src/packing.rs:344-358`. -/
def PackPage.report (p : PackPage F D) : Progress → PackPage F D
  | .discoveredDirectory n => { p with count := p.count + UInt32.ofNat n }
  | .finishedPacking => { p with stage := .packing .waitingForFlush }
  | .fileCount n => { p with count := UInt32.ofNat n }
  | .fileAdded path size => { p with name := some (path, size), progress := p.progress + 1 }
  | _ => p

/-- `update`, `/repo/xdvdfs-web/src/packing.rs:318-363`: the new state, and the input and the output of the job that is
started.  A panic if there is no input (`unwrap`, line 338). -/
def PackPage.update (p : PackPage F D) : PackMsg F D → Res (PackPage F D × Option (Picked F D × F))
  | .doNothing => .ok (p, none)
  | .setInputType k => .ok ({ p.reset 0 with inputType := some k, stage := .selectInput }, none)
  | .setInput i => .ok ({ p.reset 1 with input := some i, stage := .selectOutput }, none)
  | .setOutput f =>
    let p := { p.reset 2 with output := some f, stage := .packing .creatingFilesystem }
    match p.input with
    | some i => .ok (p, some (i, f))
    | none => .panic
  | .updateProgress r => .ok (p.report r, none)
  | .changeState s => .ok ({ p with stage := s }, none)

/-- `input_name`, `/repo/xdvdfs-web/src/packing.rs:189-194`. -/
def pickedName (fname : F → Str) (dname : D → Str) : Picked F D → Str
  | .file f => fname f
  | .dir d => dname d

/-- The name suggested for the image, `/repo/xdvdfs-web/src/packing.rs:255-266` and `with_extension`, lines 15-29.  A
panic if the name has no file name (`expect`, line 265). -/
def suggestedName (name : Str) (isDir : Bool) : Res Str :=
  match fileName name with
  | some n => .ok (withExtension n ['x', 'i', 's', 'o', '.', 'i', 's', 'o'] isDir)
  | none => .panic

/-- The button for the input, `/repo/xdvdfs-web/src/packing.rs:234-249`.  A panic if the type of the input is not set
(lines 236, 239 and 240). -/
def PackPage.inputButtons (p : PackPage F D) : Res (List Button) :=
  if p.stage.rank ≥ PackStage.selectInput.rank then
    match p.inputType with
    | some k => .ok [.input k.dialog]
    | none => .panic
  else .ok []

/-- The button for the output, `/repo/xdvdfs-web/src/packing.rs:250-282`. -/
def PackPage.outputButtons (fname : F → Str) (dname : D → Str) (p : PackPage F D) : Res (List Button) :=
  if p.stage.rank ≥ PackStage.selectOutput.rank then
    match p.input with
    | some i =>
      (suggestedName (pickedName fname dname i) (decide (p.inputType = some .directory))).bind
        fun _ => .ok [.output .saveFile]
    | none => .ok [.output .saveFile]
  else .ok []

/-- `view`, `/repo/xdvdfs-web/src/packing.rs:209-312`. -/
def PackPage.view (fname : F → Str) (dname : D → Str) (p : PackPage F D) : Res Shown :=
  p.inputButtons.bind fun inputs => (p.outputButtons fname dname).bind fun outputs => .ok {
    buttons := if p.stage.isPacking then [] else [.inputType .directory, .inputType .file] ++ inputs ++ outputs
    percent := percent p.progress p.count
    done := p.progress
    total := p.count
    error := p.stage.errorText }

/-! ## The page "Compress" -/

/-- `WorkflowState`, `/repo/xdvdfs-web/src/compress.rs:27-40`. -/
inductive CompStage where
  | selectInputType
  | selectInput
  | selectOutput
  | packing (s : ImgStage)
  | compressing
  | finished
  | error (e : Str)
  deriving DecidableEq, Repr

/-- The order of the states, `/repo/xdvdfs-web/src/compress.rs:27` and `:50-52`. -/
def CompStage.rank : CompStage → Nat
  | .selectInputType => 0
  | .selectInput => 1
  | .selectOutput => 2
  | .packing _ => 3
  | .compressing => 4
  | .finished => 5
  | .error _ => 6

/-- `is_packing_and(|_| true)`, `/repo/xdvdfs-web/src/compress.rs:54-60`. -/
def CompStage.isPacking : CompStage → Bool
  | .packing _ => true
  | _ => false

/-- The error that is shown, `/repo/xdvdfs-web/src/compress.rs:269-270`. -/
def CompStage.errorText : CompStage → Option Str
  | .error e => some e
  | _ => none

/-- `CisoProgressInfo`, `/repo/xdvdfs-web/src/compress.rs:42-47`. -/
inductive CisoProgress where
  | sectorCount (n : Nat)
  | sectorsDone (n : Nat)
  | finished
  deriving DecidableEq, Repr

/-- `ImageBuilderWorkflow`, `/repo/xdvdfs-web/src/compress.rs:105-117`. -/
structure CompPage (F D : Type) where
  stage : CompStage
  inputType : Option InputKind
  input : Option (Picked F D)
  output : Option D
  count : UInt32
  progress : UInt32
  name : Option (Str × Nat)
  deriving DecidableEq, Repr

/-- `Default`, `/repo/xdvdfs-web/src/compress.rs:124-138`. -/
def CompPage.init : CompPage F D := ⟨.selectInputType, none, none, none, 0, 0, none⟩

/-- `WorkflowMessage`, `/repo/xdvdfs-web/src/compress.rs:141-149`. -/
inductive CompMsg (F D : Type) where
  | doNothing
  | updateProgress (p : Progress)
  | updateCompression (p : CisoProgress)
  | setInputType (k : InputKind)
  | setInput (p : Picked F D)
  | setOutput (d : D)
  | changeState (s : CompStage)
  deriving DecidableEq, Repr

/-- `reset_state`, `/repo/xdvdfs-web/src/compress.rs:156-174`. -/
def CompPage.reset (p : CompPage F D) (n : Nat) : CompPage F D :=
  { p with
    inputType := if n = 0 then none else p.inputType
    input := if n ≤ 1 then none else p.input
    output := if n ≤ 2 then none else p.output
    count := if n ≤ 3 then 0 else p.count
    progress := if n ≤ 3 then 0 else p.progress
    name := if n ≤ 3 then none else p.name }

/-- The progress reports of packing, `/repo/xdvdfs-web/src/compress.rs:319-333`. -/
def CompPage.report (p : CompPage F D) : Progress → CompPage F D
  | .discoveredDirectory n => { p with count := p.count + UInt32.ofNat n }
  | .finishedPacking => { p with stage := .packing .waitingForFlush }
  | .fileCount n => { p with count := UInt32.ofNat n }
  | .fileAdded path size => { p with name := some (path, size), progress := p.progress + 1 }
  | _ => p

/-- The progress reports of compression, `/repo/xdvdfs-web/src/compress.rs:334-346`. -/
def CompPage.reportCiso (p : CompPage F D) : CisoProgress → CompPage F D
  | .sectorCount n => { p with count := UInt32.ofNat n, name := none, progress := 0 }
  | .sectorsDone n => { p with progress := p.progress + UInt32.ofNat n }
  | .finished => { p with progress := p.count }

/-- `update`, `/repo/xdvdfs-web/src/compress.rs:291-351`.  A panic if there is no input (`unwrap`, line 311). -/
def CompPage.update (p : CompPage F D) : CompMsg F D → Res (CompPage F D × Option (Picked F D × D))
  | .doNothing => .ok (p, none)
  | .setInputType k => .ok ({ p.reset 0 with inputType := some k, stage := .selectInput }, none)
  | .setInput i => .ok ({ p.reset 1 with input := some i, stage := .selectOutput }, none)
  | .setOutput d =>
    let p := { p.reset 2 with output := some d, stage := .packing .creatingFilesystem }
    match p.input with
    | some i => .ok (p, some (i, d))
    | none => .panic
  | .updateProgress r => .ok (p.report r, none)
  | .updateCompression r => .ok (p.reportCiso r, none)
  | .changeState s => .ok ({ p with stage := s }, none)

/-- The button for the input, `/repo/xdvdfs-web/src/compress.rs:217-232`.  A panic if the type of the input is not set
(lines 219, 222 and 223). -/
def CompPage.inputButtons (p : CompPage F D) : Res (List Button) :=
  if p.stage.rank ≥ CompStage.selectInput.rank then
    match p.inputType with
    | some k => .ok [.input k.dialog]
    | none => .panic
  else .ok []

/-- The button for the output, `/repo/xdvdfs-web/src/compress.rs:233-254`. -/
def CompPage.outputButtons (p : CompPage F D) : List Button :=
  if p.stage.rank ≥ CompStage.selectOutput.rank then [.output .openDirectory] else []

/-- `view`, `/repo/xdvdfs-web/src/compress.rs:192-285`. -/
def CompPage.view (p : CompPage F D) : Res Shown :=
  p.inputButtons.bind fun inputs => .ok {
    buttons := if p.stage.isPacking then [] else [.inputType .directory, .inputType .file] ++ inputs ++ p.outputButtons
    percent := percent p.progress p.count
    done := p.progress
    total := p.count
    error := p.stage.errorText }

/-! ## The page "Unpack" -/

/-- `WorkflowState`, `/repo/xdvdfs-web/src/unpacking.rs:10-20`. -/
inductive UnpackStage where
  | selectInput
  | selectOutput
  | unpacking
  | finished
  | error (e : Str)
  deriving DecidableEq, Repr

/-- The order of the states, `/repo/xdvdfs-web/src/unpacking.rs:10` and `:23-25`. -/
def UnpackStage.rank : UnpackStage → Nat
  | .selectInput => 0
  | .selectOutput => 1
  | .unpacking => 2
  | .finished => 3
  | .error _ => 4

/-- The error that is shown, `/repo/xdvdfs-web/src/unpacking.rs:161-162`. -/
def UnpackStage.errorText : UnpackStage → Option Str
  | .error e => some e
  | _ => none

/-- `ImageUnpackingWorkflow`, `/repo/xdvdfs-web/src/unpacking.rs:28-39`. -/
structure UnpackPage (F D : Type) where
  stage : UnpackStage
  input : Option F
  output : Option D
  count : UInt32
  progress : UInt32
  name : Option (Str × Nat)
  deriving DecidableEq, Repr

/-- `Default`, `/repo/xdvdfs-web/src/unpacking.rs:46-59`. -/
def UnpackPage.init : UnpackPage F D := ⟨.selectInput, none, none, 0, 0, none⟩

/-- `WorkflowMessage`, `/repo/xdvdfs-web/src/unpacking.rs:62-68`. -/
inductive UnpackMsg (F D : Type) where
  | doNothing
  | updateProgress (p : Progress)
  | setInput (p : Picked F D)
  | setOutput (d : D)
  | changeState (s : UnpackStage)
  deriving DecidableEq, Repr

/-- `reset_state`, `/repo/xdvdfs-web/src/unpacking.rs:75-89`. -/
def UnpackPage.reset (p : UnpackPage F D) (n : Nat) : UnpackPage F D :=
  { p with
    input := if n = 0 then none else p.input
    output := if n ≤ 1 then none else p.output
    count := if n ≤ 2 then 0 else p.count
    progress := if n ≤ 2 then 0 else p.progress
    name := if n ≤ 2 then none else p.name }

/-- The progress reports, `/repo/xdvdfs-web/src/unpacking.rs:204-211`. -/
def UnpackPage.report (p : UnpackPage F D) : Progress → UnpackPage F D
  | .fileCount n => { p with count := UInt32.ofNat n }
  | .fileAdded path size => { p with name := some (path, size), progress := p.progress + 1 }
  | _ => p

/-- `update`, `/repo/xdvdfs-web/src/unpacking.rs:182-216`.  The input is taken out of the page when a job is started; a
panic if there is none (`take().unwrap()`, line 198). -/
def UnpackPage.update (p : UnpackPage F D) : UnpackMsg F D → Res (UnpackPage F D × Option (F × D))
  | .doNothing => .ok (p, none)
  | .setInput i =>
    match i with
    | .file f => .ok ({ p.reset 1 with input := some f, stage := .selectOutput }, none)
    | .dir _ => .ok (p, none)
  | .setOutput d =>
    let p := { p.reset 2 with output := some d, stage := .unpacking }
    match p.input with
    | some f => .ok ({ p with input := none }, some (f, d))
    | none => .panic
  | .updateProgress r => .ok (p.report r, none)
  | .changeState s => .ok ({ p with stage := s }, none)

/-- `view`, `/repo/xdvdfs-web/src/unpacking.rs:104-176`. -/
def UnpackPage.view (p : UnpackPage F D) : Res Shown :=
  .ok {
    buttons := if p.stage = .unpacking then []
      else .input .openFile :: (if p.stage.rank ≥ UnpackStage.selectOutput.rank then [.output .openDirectory] else [])
    percent := percent p.progress p.count
    done := p.progress
    total := p.count
    error := p.stage.errorText }

/-! ## A page, its user and its jobs -/

/-- A page: its first state, its functions `update` and `view`, the messages of its buttons and dialogs, and the
messages a job can send while it runs and when it ends. `J` is what a job is given. For
`/repo/xdvdfs-web/src/packing.rs:201-368`, `/repo/xdvdfs-web/src/picker/mod.rs:80-140`; the other two pages are
built alike. -/
structure PageDef (S M J F D : Type) where
  init : S
  update : S → M → Res (S × Option J)
  view : S → Res Shown
  typeMsg : InputKind → M
  inputMsg : Picked F D → M
  outputMsg : Picked F D → M
  midMsg : M → Bool
  endMsg : M → Bool

/-- The system: the page, the dialog that is open (with the button that opened it), and the jobs that run. For
`/repo/xdvdfs-web/src/packing.rs:201-368`, `/repo/xdvdfs-web/src/picker/mod.rs:80-140`; the other two pages are
built alike. -/
structure UiSys (S J : Type) where
  page : S
  dialog : Option Button
  jobs : List J
  deriving DecidableEq, Repr

/-- What can happen next: the user clicks a button, chooses something in the open dialog or closes it; job
number `k` sends a message, ends with a message, or dies without one. For
`/repo/xdvdfs-web/src/packing.rs:201-368`, `/repo/xdvdfs-web/src/picker/mod.rs:80-140`; the other two pages are
built alike. -/
inductive UiEvent (M F D : Type) where
  | click (b : Button)
  | choose (p : Picked F D)
  | cancel
  | report (k : Nat) (m : M)
  | ends (k : Nat) (m : M)
  | dies (k : Nat)
  deriving DecidableEq, Repr

/-- A message is handled: `update` runs, a job may start, and the page is drawn again. For
`/repo/xdvdfs-web/src/packing.rs:201-368`, `/repo/xdvdfs-web/src/picker/mod.rs:80-140`; the other two pages are
built alike. -/
def UiSys.deliver (d : PageDef S M J F D) (s : UiSys S J) (m : M) : Res (UiSys S J) := do
  let (page, job) ← d.update s.page m
  let _ ← d.view page
  .ok { s with page := page, jobs := s.jobs ++ job.toList }

/-- One event. `none` means that it cannot happen: a button that is not shown or not enabled cannot be clicked,
and while a dialog is open no button can be clicked (dialogs are modal); a dialog delivers what it was opened
for. For `/repo/xdvdfs-web/src/packing.rs:201-368`, `/repo/xdvdfs-web/src/picker/mod.rs:80-140`; the other two
pages are built alike. -/
def UiSys.step (d : PageDef S M J F D) (s : UiSys S J) : UiEvent M F D → Option (Res (UiSys S J))
  | .click b =>
    match d.view s.page with
    | .ok shown =>
      if s.dialog = none ∧ b ∈ shown.buttons then
        match b with
        | .inputType k => some (s.deliver d (d.typeMsg k))
        | b => some (.ok { s with dialog := some b })
      else none
    | _ => none
  | .choose p =>
    match s.dialog with
    | some (.input k) =>
      if k.delivers p then some (UiSys.deliver d { s with dialog := none } (d.inputMsg p)) else none
    | some (.output k) =>
      if k.delivers p then some (UiSys.deliver d { s with dialog := none } (d.outputMsg p)) else none
    | _ => none
  | .cancel => if s.dialog.isSome then some (.ok { s with dialog := none }) else none
  | .report k m => if k < s.jobs.length ∧ d.midMsg m then some (s.deliver d m) else none
  | .ends k m =>
    if k < s.jobs.length ∧ d.endMsg m then some (UiSys.deliver d { s with jobs := s.jobs.eraseIdx k } m) else none
  | .dies k => if k < s.jobs.length then some (.ok { s with jobs := s.jobs.eraseIdx k }) else none

/-- A history of events, from the first state of the page. `none` if one of them could not happen; a panic ends
the page. For `/repo/xdvdfs-web/src/packing.rs:201-368`, `/repo/xdvdfs-web/src/picker/mod.rs:80-140`; the other
two pages are built alike. -/
def runUi (d : PageDef S M J F D) : List (UiEvent M F D) → UiSys S J → Option (Res (UiSys S J))
  | [], s => some (.ok s)
  | e :: es, s =>
    match s.step d e with
    | some (.ok s') => runUi d es s'
    | other => other

/-- The first state: no dialog, no job. `/repo/xdvdfs-web/src/packing.rs:314-316`. -/
def UiSys.init (d : PageDef S M J F D) : UiSys S J := ⟨d.init, none, []⟩

/-- The page "Pack".  The messages of its jobs are those of `create_image`, `/repo/xdvdfs-web/src/packing.rs:370-383`,
and of the callbacks it passes on (`/repo/xdvdfs-web/src/ops/browser.rs:22-41`, `/repo/xdvdfs-web/src/ops/tauri.rs:38-66`). -/
def packDef (fname : F → Str) (dname : D → Str) : PageDef (PackPage F D) (PackMsg F D) (Picked F D × F) F D where
  init := .init
  update := PackPage.update
  view := PackPage.view fname dname
  typeMsg := .setInputType
  inputMsg := .setInput
  outputMsg := fun p => match p with | .file f => .setOutput f | .dir _ => .doNothing
  midMsg := fun m => match m with
    | .updateProgress _ => true
    | .changeState (.packing _) => true
    | _ => false
  endMsg := fun m => match m with
    | .changeState .finished => true
    | .changeState (.error _) => true
    | _ => false

/-- The page "Compress".  The messages of its jobs are those of `create_image`,
`/repo/xdvdfs-web/src/compress.rs:358-379`, and of its callbacks (`/repo/xdvdfs-web/src/ops/browser.rs:43-91`,
`/repo/xdvdfs-web/src/ops/tauri.rs:93-135`). -/
def compDef : PageDef (CompPage F D) (CompMsg F D) (Picked F D × D) F D where
  init := .init
  update := CompPage.update
  view := CompPage.view
  typeMsg := .setInputType
  inputMsg := .setInput
  outputMsg := fun p => match p with | .dir d => .setOutput d | .file _ => .doNothing
  midMsg := fun m => match m with
    | .updateProgress _ => true
    | .updateCompression _ => true
    | .changeState (.packing _) => true
    | .changeState .compressing => true
    | _ => false
  endMsg := fun m => match m with
    | .changeState .finished => true
    | .changeState (.error _) => true
    | _ => false

/-- The page "Unpack".  The messages of its jobs are those of `unpack_image`,
`/repo/xdvdfs-web/src/unpacking.rs:223-236`, and of its callbacks (`/repo/xdvdfs-web/src/ops/browser.rs:116-187`,
`/repo/xdvdfs-web/src/ops/tauri.rs:68-91`). -/
def unpackDef : PageDef (UnpackPage F D) (UnpackMsg F D) (F × D) F D where
  init := .init
  update := UnpackPage.update
  view := UnpackPage.view
  typeMsg := fun _ => .doNothing
  inputMsg := .setInput
  outputMsg := fun p => match p with | .dir d => .setOutput d | .file _ => .doNothing
  midMsg := fun m => match m with
    | .updateProgress _ => true
    | .changeState .unpacking => true
    | _ => false
  endMsg := fun m => match m with
    | .changeState .finished => true
    | .changeState (.error _) => true
    | _ => false

end Xdvdfs
