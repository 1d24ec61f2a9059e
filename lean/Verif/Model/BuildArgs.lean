import Verif.Model.BuildImage
import Verif.Model.Compress

/-!
# `build-image`, from its arguments

`/repo/xdvdfs-cli/src/cmd_build_image.rs`.  `Verif.Model.BuildImage` starts from resolved paths; here the arguments are
strings, as the user types them.  Unix paths, no symbolic links.
-/

namespace Xdvdfs

/-- `Path::parent` on a path string: what is before the last component, without the slashes and dots at its end
that name nothing; the empty path for a bare name, and nothing for the root and the empty path. Called at
`/repo/xdvdfs-cli/src/cmd_build_image.rs:149`. -/
def pathParent (path : Str) : Option Str :=
  let trimmed := trimTail path.reverse
  if trimmed = [] then none
  else
    let before := trimmed.dropWhile (fun c => c ≠ '/')
    let dir := (trimTail before).reverse
    some (if dir = [] ∧ before ≠ [] then ['/'] else dir)

/-- `BuildImageArgs`, `/repo/xdvdfs-cli/src/cmd_build_image.rs:41-73`. -/
structure BuildStrings where
  spec : Option Str
  rules : Option (List Str)
  metaOutput : Option Str
  dryRun : Bool
  source : Option Str
  image : Option Str

/-- The specification that is used and the directory that is mapped,
`/repo/xdvdfs-cli/src/cmd_build_image.rs:139-159`. -/
def buildPathStrings (h : Host) (fs : HostFs) (a : BuildStrings) : Res (Str × Str) :=
  let source := a.source.getD (pathStr h.cwd)
  match h.stat fs source with
  | some (_, .dir) => .ok (a.spec.getD (pathJoin source specName), source)
  | _ =>
    match pathParent source with
    | some dir => .ok (a.spec.getD source, dir)
    | none => .err .other

/-- Reading the specification, `/repo/xdvdfs-cli/src/cmd_build_image.rs:182-187`. -/
def buildSpecString (parse : Bytes → Option ImageSpec) (h : Host) (fs : HostFs) (a : BuildStrings) (specPath : Str) :
    Res (Option ImageSpec) :=
  match h.stat fs specPath, a.rules with
  | some (_, .file b), none =>
    match parse b with
    | some spec => .ok (some spec)
    | none => .err .other
  | some (_, .dir), none => .err .io
  | _, _ => .ok none

/-- The rules, `/repo/xdvdfs-cli/src/cmd_build_image.rs:161-191`. -/
def buildRuleStrings (a : BuildStrings) (spec : Option ImageSpec) : Res (List (Str × Str)) := do
  let fromArgs ← parseMapRules (a.rules.getD [])
  let fromSpec ← specRules ((spec.bind ImageSpec.rules).getD [])
  if fromArgs ++ fromSpec = [] then .err .other else pure (fromArgs ++ fromSpec)

/-- `with_extension`, `/repo/xdvdfs-cli/src/img.rs:93-107`, on the path string of a directory. -/
def pathAddExtension (path ext : Str) : Str :=
  match pathExtension path with
  | none => pathWithExtension path ext
  | some e => pathWithExtension path (e ++ '.' :: ext)

/-- The output path, `/repo/xdvdfs-cli/src/cmd_build_image.rs:195-208`. -/
def buildOutputString (a : BuildStrings) (spec : Option ImageSpec) (source : Str) : Str :=
  match a.image with
  | some s => s
  | none =>
    match spec.bind ImageSpec.output with
    | some out => pathJoin source out
    | none => pathAddExtension source ['x', 'i', 's', 'o', '.', 'i', 's', 'o']

/-- Packing, `/repo/xdvdfs-cli/src/cmd_build_image.rs:210-248`, as in `runBuild`.  A source directory that cannot be found
cannot be listed. -/
def runBuildStrings (h : Host) (t : Tool) (G : GlobEngine) (r : DirReader) (self : Bytes) (faults : Faults) (fs : HostFs)
    (dryRun : Bool) (rules : List (Str × Str)) (source image : Str) : List HostFs × Res BuildResult :=
  match h.resolve fs source with
  | .ok src =>
    match remapNew G rules (stdReadDir r fs src) t.fuel with
    | .ok trie =>
      if dryRun then
        match remapDump trie t.fuel with
        | .ok lines => ([], .ok ⟨fs, lines⟩)
        | .err e => ([], .err e)
        | .panic => ([], .panic)
        | .hang => ([], .hang)
      else
        match h.openOutput image fs with
        | .ok (out, fs1) =>
          let sfs := remapFs (buildSource r fs src out self) trie t.fuel
          let killed := (createImage (bufEnv sfs (cliPolicy t.early) faults) t.fuel ⟨⟨[], 0, [], 0⟩, []⟩).2.dev.img
          let closed := packFile sfs (cliPolicy t.early) faults t.fuel
          let seen := [fs1, fs1.set out (.file killed), fs1.set out (.file closed.2.img)]
          match closed.1 with
          | .ok _ => (seen, .ok ⟨fs1.set out (.file closed.2.img), []⟩)
          | .err e => (seen, .err e)
          | .panic => (seen, .panic)
          | .hang => (seen, .hang)
        | .err e => ([], .err e)
        | .panic => ([], .panic)
        | .hang => ([], .hang)
    | .err e => ([], .err e)
    | .panic => ([], .panic)
    | .hang => ([], .hang)
  | _ =>
    match remapNew G rules (fun _ => .err .io) t.fuel with
    | .panic => ([], .panic)
    | .hang => ([], .hang)
    | _ => ([], .err .io)

/-- `cmd_build_image`, `/repo/xdvdfs-cli/src/cmd_build_image.rs:138-248`.  (As in `buildPlan`, it does not matter which of
two errors is found first.) -/
def cmdBuildStrings (h : Host) (t : Tool) (G : GlobEngine) (parse : Bytes → Option ImageSpec) (r : DirReader)
    (self : Bytes) (faults : Faults) (fs : HostFs) (a : BuildStrings) : List HostFs × Res BuildResult :=
  let plan : Res (List (Str × Str) × Str × Str) := do
    let (specPath, source) ← buildPathStrings h fs a
    let spec ← buildSpecString parse h fs a specPath
    let rules ← buildRuleStrings a spec
    pure (rules, source, buildOutputString a spec source)
  match plan with
  | .ok (rules, source, image) => runBuildStrings h t G r self faults fs a.dryRun rules source image
  | .err e => ([], .err e)
  | .panic => ([], .panic)
  | .hang => ([], .hang)

end Xdvdfs
