import Verif.Model.BuildArgs

/-!
# The command `image-spec from`
-/

namespace Xdvdfs

/-- `cmd_image_spec`, `/repo/xdvdfs-cli/src/cmd_build_image.rs:250-297`: the states the host passes through, and the result
with the final state and what is printed.  `print` is `toml::to_string_pretty` (line 286), which is assumed to succeed.
`std::fs::write` (line 289) creates or empties the file and then writes; `cut` is the number of bytes that reach the file
if the write fails. -/
def cmdImageSpec (h : Host) (print : ImageSpec → Bytes) (cut : Option Nat) (fs : HostFs) (rules : Option (List Str))
    (output file : Option Str) : List HostFs × Res (HostFs × Bytes) :=
  match imageSpecFrom rules output with
  | .ok spec =>
    match file with
    | some f =>
      match h.openOutput f fs with
      | .ok (p, fs1) =>
        match cut with
        | none => ([fs1, fs1.set p (.file (print spec))], .ok (fs1.set p (.file (print spec)), []))
        | some k => ([fs1, fs1.set p (.file ((print spec).take k))], .err .io)
      | .err e => ([], .err e)
      | .panic => ([], .panic)
      | .hang => ([], .hang)
    | none => ([], .ok (fs, print spec))
  | .err e => ([], .err e)
  | .panic => ([], .panic)
  | .hang => ([], .hang)

end Xdvdfs
