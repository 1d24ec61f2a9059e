import Verif.Model.StdFs
import Verif.Model.Remap

/-!
# The commands `build-image` and `image-spec`

`/repo/xdvdfs-cli/src/cmd_build_image.rs`.  As in `Verif.Model.Cli`, paths given on the command line are absolute and
resolved; `Verif.Model.BuildArgs` starts from the strings.  The TOML library is a pair of functions between specifications
and bytes.
-/

namespace Xdvdfs

/-- `str::split(":")`. Called at `/repo/xdvdfs-cli/src/cmd_build_image.rs:166`. -/
def splitColonLoop : Str → Str → List Str
  | [], cur => [cur.reverse]
  | c :: cs, cur => if c = ':' then cur.reverse :: splitColonLoop cs [] else splitColonLoop cs (c :: cur)

/-- The first two parts of a map rule, `/repo/xdvdfs-cli/src/cmd_build_image.rs:166-178` and, the same, 257-269: later
parts are dropped, and only rules that start with `!` may have a single part. -/
def parseMapRule (rule : Str) : Res (Str × Str) :=
  match splitColonLoop rule [] with
  | [] => .err .other
  | [host] => if host.head? = some '!' then .ok (host, []) else .err .other
  | host :: image :: _ => .ok (host, image)

/-- The loop over the `-m` options, `/repo/xdvdfs-cli/src/cmd_build_image.rs:164-180`. -/
def parseMapRules : List Str → Res (List (Str × Str))
  | [] => .ok []
  | rule :: rules => do
    let r ← parseMapRule rule
    let rs ← parseMapRules rules
    pure (r :: rs)

/-- `ImageSpec`, `/repo/xdvdfs-cli/src/cmd_build_image.rs:108-117`: the output path, if there is one, and the table of map
rules, if there is one.  The values in the table are strings, or something else (`none`). -/
structure ImageSpec where
  output : Option Str
  rules : Option (List (Str × Option Str))
  deriving DecidableEq

/-- `toml::Table::insert` with the feature `preserve_order`
(`/repo/xdvdfs-cli/Cargo.toml`): a key that is there keeps its position and gets the new value. -/
def tableInsert (key : Str) (value : Option Str) : List (Str × Option Str) → List (Str × Option Str)
  | [] => [(key, value)]
  | (k, v) :: rest => if k = key then (k, value) :: rest else (k, v) :: tableInsert key value rest

/-- The loop that fills the table, `/repo/xdvdfs-cli/src/cmd_build_image.rs:255-270`. -/
def specTable : List Str → List (Str × Option Str) → Res (List (Str × Option Str))
  | [], table => .ok table
  | rule :: rules, table => do
    let (host, image) ← parseMapRule rule
    specTable rules (tableInsert host (some image) table)

/-- What `image-spec from` writes, `/repo/xdvdfs-cli/src/cmd_build_image.rs:250-287`. -/
def imageSpecFrom (rules : Option (List Str)) (output : Option Str) : Res ImageSpec :=
  match rules with
  | none => .ok ⟨output, none⟩
  | some rules => do
    let table ← specTable rules []
    pure ⟨output, some table⟩

/-- `deserialize_overlay_config`, `/repo/xdvdfs-cli/src/cmd_build_image.rs:119-135`. -/
def specRules : List (Str × Option Str) → Res (List (Str × Str))
  | [] => .ok []
  | (key, some value) :: rest => do
    let rs ← specRules rest
    pure ((key, value) :: rs)
  | (_, none) :: _ => .err .other

/-- `BuildImageArgs`, `/repo/xdvdfs-cli/src/cmd_build_image.rs:41-73`; the source path is the working directory if none is
given. -/
structure BuildArgs where
  spec : Option HostPath
  rules : Option (List Str)
  metaOutput : Option Str
  dryRun : Bool
  source : HostPath
  image : Option HostPath

/-- What is to be built. The place of the output is looked up only when it is opened.
`/repo/xdvdfs-cli/src/cmd_build_image.rs:139-208`. -/
structure BuildPlan where
  rules : List (Str × Str)
  source : HostPath
  image : Res HostPath
  deriving DecidableEq

/-- `xdvdfs.toml`, `/repo/xdvdfs-cli/src/cmd_build_image.rs:146`. -/
def specName : Str := ['x', 'd', 'v', 'd', 'f', 's', '.', 't', 'o', 'm', 'l']

/-- The specification that is used and the directory that is mapped,
`/repo/xdvdfs-cli/src/cmd_build_image.rs:139-159`. -/
def buildPaths (fs : HostFs) (args : BuildArgs) : Res (HostPath × HostPath) :=
  if fs args.source = some .dir then
    .ok (args.spec.getD (args.source ++ [specName]), args.source)
  else if args.source = [] then .err .other
  else .ok (args.spec.getD args.source, args.source.dropLast)

/-- Reading the specification, `/repo/xdvdfs-cli/src/cmd_build_image.rs:182-187`: it is not read if there are `-m` options
or if it does not exist. -/
def buildSpec (parse : Bytes → Option ImageSpec) (fs : HostFs) (args : BuildArgs) (specPath : HostPath) :
    Res (Option ImageSpec) :=
  if (fs specPath).isSome ∧ args.rules = none then
    match fs specPath with
    | some (.file b) => match parse b with
      | some spec => .ok (some spec)
      | none => .err .other
    | _ => .err .io
  else .ok none

/-- The rules, `/repo/xdvdfs-cli/src/cmd_build_image.rs:161-191`. -/
def buildRuleList (args : BuildArgs) (spec : Option ImageSpec) : Res (List (Str × Str)) := do
  let fromArgs ← parseMapRules (args.rules.getD [])
  let fromSpec ← specRules ((spec.bind ImageSpec.rules).getD [])
  if fromArgs ++ fromSpec = [] then .err .other else pure (fromArgs ++ fromSpec)

/-- The output path, `/repo/xdvdfs-cli/src/cmd_build_image.rs:195-208`.  `-O` is not consulted.  An output that the
specification gives is resolved from the source directory; nothing can be created at a path that ends in a slash, in `.`
or in `..`, or that contains a NUL. -/
def buildOutput (fs : HostFs) (args : BuildArgs) (spec : Option ImageSpec) (source : HostPath) : Res HostPath :=
  match args.image with
  | some p => .ok p
  | none =>
    match spec.bind ImageSpec.output with
    | some out =>
      if Char.ofNat 0 ∈ out ∨ (splitSlash out).getLast? = some [] ∨ (splitSlash out).getLast? = some ['.'] ∨
          (splitSlash out).getLast? = some ['.', '.'] then .err .io
      else hostWalk fs (if out.head? = some '/' then [] else source) (hostComps out)
    | none => .ok (onFileName (fun n => withExtension n ['x', 'i', 's', 'o', '.', 'i', 's', 'o'] true) source)

/-- Everything before the source is read, `/repo/xdvdfs-cli/src/cmd_build_image.rs:139-208`.  (The first `-m` option that
cannot be parsed is reported before the specification is read; both are errors.) -/
def buildPlan (parse : Bytes → Option ImageSpec) (fs : HostFs) (args : BuildArgs) : Res BuildPlan := do
  let (specPath, source) ← buildPaths fs args
  let spec ← buildSpec parse fs args specPath
  let rules ← buildRuleList args spec
  pure ⟨rules, source, buildOutput fs args spec source⟩

/-- Opening the output, `/repo/xdvdfs-cli/src/cmd_build_image.rs:222-226`: it is created, or truncated if it exists,
without any check. -/
def buildOpen (fs : HostFs) (image : Res HostPath) : Res (HostPath × HostFs) := do
  let p ← image
  if fs p = some .dir ∨ fs p.dropLast ≠ some .dir then .err .io else pure (p, fs.set p (.file []))

/-- The source of the overlay, `/repo/xdvdfs-cli/src/cmd_build_image.rs:210-211`.  It is listed before the output is
opened, and copied from afterwards: if the output is one of its files, what is copied from that is whatever the output
then holds, `self`. -/
def buildSource (r : DirReader) (fs : HostFs) (source image : HostPath) (self : Bytes) : SourceFs where
  readDir := stdReadDir r fs source
  pathToString := (stdFs r fs source).pathToString
  copy := stdCopy r (fs.set image (.file self)) source

/-- What `build-image` leaves: the host, and the lines it printed.
`/repo/xdvdfs-cli/src/cmd_build_image.rs:210-248`. -/
structure BuildResult where
  fs : HostFs
  lines : List (Path × Path)

/-- `build-image` with its plan made, `/repo/xdvdfs-cli/src/cmd_build_image.rs:210-248`: the states of the host that can be
seen, and the outcome.  The lines are those of the dry run; the progress messages are left out. -/
def runBuild (t : Tool) (G : GlobEngine) (r : DirReader) (self : Bytes) (faults : Faults) (fs : HostFs) (dryRun : Bool)
    (plan : BuildPlan) : List HostFs × Res BuildResult :=
  match remapNew G plan.rules (stdReadDir r fs plan.source) t.fuel with
  | .ok trie =>
    if dryRun then
      match remapDump trie t.fuel with
      | .ok lines => ([], .ok ⟨fs, lines⟩)
      | .err e => ([], .err e)
      | .panic => ([], .panic)
      | .hang => ([], .hang)
    else
      match buildOpen fs plan.image with
      | .ok (out, fs1) =>
        let sfs := remapFs (buildSource r fs plan.source out self) trie t.fuel
        let killed := (createImage (bufEnv sfs (cliPolicy t.early) faults) t.fuel ⟨⟨[], 0, [], 0⟩, []⟩).2.dev.img
        let closed := packFile sfs (cliPolicy t.early) faults t.fuel
        let seen := [fs1, fs1.set out (.file killed), fs1.set out (.file closed.2.img)]
        match closed.1 with
        | .ok _ => (seen, .ok ⟨fs1.set out (.file closed.2.img), []⟩)
        | .err e => (seen, .err e)
        | .panic => (seen, .panic)
        | .hang => (seen, .hang)
      | .err e => ([], .err e)
      | .panic => ([], .panic)
      | .hang => ([], .hang)
  | .err e => ([], .err e)
  | .panic => ([], .panic)
  | .hang => ([], .hang)

/-- `cmd_build_image`, `/repo/xdvdfs-cli/src/cmd_build_image.rs:138-248`. -/
def cmdBuildImage (t : Tool) (G : GlobEngine) (parse : Bytes → Option ImageSpec) (r : DirReader) (self : Bytes)
    (faults : Faults) (fs : HostFs) (args : BuildArgs) : List HostFs × Res BuildResult :=
  match buildPlan parse fs args with
  | .ok plan => runBuild t G r self faults fs args.dryRun plan
  | .err e => ([], .err e)
  | .panic => ([], .panic)
  | .hang => ([], .hang)

end Xdvdfs
