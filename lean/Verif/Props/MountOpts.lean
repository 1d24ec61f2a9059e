import Verif.Spec.MountOpts
import Verif.Model.Fuse

/-!
# Properties of mounting: options and read-only access
-/

namespace Xdvdfs.Props
open Spec

theorem splitComma_ne (s : Str) : splitComma s ≠ [] := by
  cases s with
  | nil => simp [splitComma]
  | cons c cs =>
    unfold splitComma
    split
    · simp
    · split <;> simp

theorem splitComma_plain : ∀ {s : Str}, ',' ∉ s → splitComma s = [s]
  | [], _ => rfl
  | c :: cs, h => by
    have hc : c ≠ ',' := by rintro rfl; simp at h
    unfold splitComma
    rw [if_neg hc, splitComma_plain (fun h' => h (List.mem_cons_of_mem _ h'))]

theorem splitComma_append : ∀ {s : Str}, ',' ∉ s → ∀ t, splitComma (s ++ ',' :: t) = s :: splitComma t
  | [], _, t => by simp [splitComma]
  | c :: cs, h, t => by
    have hc : c ≠ ',' := by rintro rfl; simp at h
    have := splitComma_append (fun h' => h (List.mem_cons_of_mem _ h')) t (s := cs)
    rw [List.cons_append, splitComma, if_neg hc, this]

/-- Joining the pieces gives the string back. -/
theorem splitComma_join : ∀ (s : Str), ∃ a as, splitComma s = a :: as ∧ s = a ++ as.flatMap (fun x => ',' :: x) ∧
    ∀ x ∈ a :: as, ',' ∉ x
  | [] => ⟨[], [], rfl, rfl, by simp⟩
  | c :: cs => by
    obtain ⟨a, as, h1, h2, h3⟩ := splitComma_join cs
    unfold splitComma
    split
    · rename_i hc
      refine ⟨[], a :: as, by rw [h1], by rw [hc, h2]; simp, ?_⟩
      intro x hx
      rcases List.mem_cons.1 hx with rfl | hx
      · simp
      · exact h3 x hx
    · rename_i hc
      rw [h1]
      refine ⟨c :: a, as, rfl, by rw [h2]; rfl, ?_⟩
      intro x hx
      rcases List.mem_cons.1 hx with rfl | hx
      · intro hm
        rcases List.mem_cons.1 hm with h | h
        · exact hc h.symm
        · exact h3 a List.mem_cons_self h
      · exact h3 x (List.mem_cons_of_mem _ hx)

theorem split_optText : ∀ {as : List MountArg}, as ≠ [] → (∀ a ∈ as, ',' ∉ a.text) →
    splitComma (optText as) = as.map MountArg.text
  | [a], _, h => splitComma_plain (h a List.mem_cons_self)
  | a :: b :: as, _, h => by
    have := split_optText (as := b :: as) (by simp) (fun x hx => h x (List.mem_cons_of_mem _ hx))
    rw [optText, splitComma_append (h a List.mem_cons_self), this]
    rfl

def argKind : MountArg → MountOpt ⊕ Bool
  | .mount o => .inl o
  | .fork => .inr true
  | .noFork => .inr false

theorem parse_text (a : MountArg) : parseMountOpt a.text = some (argKind a) := by
  cases a with
  | fork => rfl
  | noFork => rfl
  | mount o =>
    cases o <;> rfl

theorem parse_some {x : Str} {k : MountOpt ⊕ Bool} (h : parseMountOpt x = some k) : ∃ a : MountArg, a.text = x := by
  unfold parseMountOpt at h
  by_cases g : x = "auto_unmount".toList
  · exact ⟨.mount .autoUnmount, g.symm⟩
  rw [if_neg g] at h; clear g
  by_cases g : x = "allow_other".toList
  · exact ⟨.mount .allowOther, g.symm⟩
  rw [if_neg g] at h; clear g
  by_cases g : x = "allow_root".toList
  · exact ⟨.mount .allowRoot, g.symm⟩
  rw [if_neg g] at h; clear g
  by_cases g : x = "default_permissions".toList
  · exact ⟨.mount .defaultPermissions, g.symm⟩
  rw [if_neg g] at h; clear g
  by_cases g : x = "suid".toList
  · exact ⟨.mount .suid, g.symm⟩
  rw [if_neg g] at h; clear g
  by_cases g : x = "nosuid".toList
  · exact ⟨.mount .noSuid, g.symm⟩
  rw [if_neg g] at h; clear g
  by_cases g : x = "ro".toList
  · exact ⟨.mount .ro, g.symm⟩
  rw [if_neg g] at h; clear g
  by_cases g : x = "rw".toList
  · exact ⟨.mount .rw, g.symm⟩
  rw [if_neg g] at h; clear g
  by_cases g : x = "exec".toList
  · exact ⟨.mount .exec, g.symm⟩
  rw [if_neg g] at h; clear g
  by_cases g : x = "noexec".toList
  · exact ⟨.mount .noExec, g.symm⟩
  rw [if_neg g] at h; clear g
  by_cases g : x = "dev".toList
  · exact ⟨.mount .dev, g.symm⟩
  rw [if_neg g] at h; clear g
  by_cases g : x = "nodev".toList
  · exact ⟨.mount .noDev, g.symm⟩
  rw [if_neg g] at h; clear g
  by_cases g : x.take 7 = "fsname=".toList
  · exact ⟨.mount (.fsName (x.drop 7)), by
      have := List.take_append_drop 7 x
      rw [g] at this
      exact this⟩
  rw [if_neg g] at h; clear g
  by_cases g : x.take 8 = "subtype=".toList
  · exact ⟨.mount (.subtype (x.drop 8)), by
      have := List.take_append_drop 8 x
      rw [g] at this
      exact this⟩
  rw [if_neg g] at h; clear g
  by_cases g : x = "fork".toList
  · exact ⟨.fork, g.symm⟩
  rw [if_neg g] at h; clear g
  by_cases g : x = "nofork".toList
  · exact ⟨.noFork, g.symm⟩
  rw [if_neg g] at h; clear g
  cases h

/-- The state after one argument. -/
def argStep (s : MountOptState) : MountArg → MountOptState
  | .fork => { s with fork := true }
  | .noFork => { s with fork := false }
  | .mount o => { s with
      opts := s.opts ++ [o]
      hasFsname := s.hasFsname || (match o with | .fsName _ => true | _ => false)
      hasSubtype := s.hasSubtype || (match o with | .subtype _ => true | _ => false) }

theorem parsePieces_texts : ∀ (as : List MountArg) (s : MountOptState),
    parsePieces s (as.map MountArg.text) = some (as.foldl argStep s)
  | [], s => rfl
  | a :: as, s => by
    rw [List.map_cons, parsePieces, parse_text, List.foldl_cons, ← parsePieces_texts as]
    cases a <;> rfl

theorem parseOptArgs_texts : ∀ (gs : List (List MountArg)) (s : MountOptState), (∀ g ∈ gs, g ≠ [] ∧ ∀ a ∈ g, ',' ∉ a.text) →
    parseOptArgs s (gs.map optText) = some (gs.flatten.foldl argStep s)
  | [], s, _ => rfl
  | g :: gs, s, h => by
    obtain ⟨h1, h2⟩ := h g List.mem_cons_self
    rw [List.map_cons, parseOptArgs, split_optText h1 h2, parsePieces_texts, List.flatten_cons, List.foldl_append]
    exact parseOptArgs_texts gs _ (fun g hg => h g (List.mem_cons_of_mem _ hg))

theorem foldl_opts : ∀ (as : List MountArg) (s : MountOptState), (as.foldl argStep s).opts = s.opts ++ mountsOf as
  | [], s => by simp [mountsOf]
  | a :: as, s => by
    rw [List.foldl_cons, foldl_opts as]
    cases a <;> simp [argStep, mountsOf]

theorem foldl_fork : ∀ (as : List MountArg) (s : MountOptState), (as.foldl argStep s).fork =
    match as.reverse.find? (fun a => a = .fork ∨ a = .noFork) with
    | some a => decide (a = .fork)
    | none => s.fork
  | [], s => rfl
  | a :: as, s => by
    rw [List.foldl_cons, foldl_fork as, List.reverse_cons, List.find?_append]
    cases h : as.reverse.find? (fun a => a = .fork ∨ a = .noFork) with
    | some x => simp
    | none => cases a <;> simp [argStep]

theorem foldl_fsname : ∀ (as : List MountArg) (s : MountOptState), (as.foldl argStep s).hasFsname =
    (s.hasFsname || as.any (fun a => match a with | .mount (.fsName _) => true | _ => false))
  | [], s => by simp
  | a :: as, s => by
    rw [List.foldl_cons, foldl_fsname as, List.any_cons]
    cases a with
    | mount o => cases o <;> simp [argStep]
    | _ => simp [argStep]

theorem foldl_subtype : ∀ (as : List MountArg) (s : MountOptState), (as.foldl argStep s).hasSubtype =
    (s.hasSubtype || as.any (fun a => match a with | .mount (.subtype _) => true | _ => false))
  | [], s => by simp
  | a :: as, s => by
    rw [List.foldl_cons, foldl_subtype as, List.any_cons]
    cases a with
    | mount o => cases o <;> simp [argStep]
    | _ => simp [argStep]

theorem parsePieces_some : ∀ {xs : List Str} {s s' : MountOptState}, parsePieces s xs = some s' →
    ∃ as : List MountArg, as.map MountArg.text = xs
  | [], _, _, _ => ⟨[], rfl⟩
  | x :: xs, s, s', h => by
    unfold parsePieces at h
    split at h
    · cases h
    all_goals
      rename_i hk
      obtain ⟨a, ha⟩ := parse_some hk
      obtain ⟨as, has⟩ := parsePieces_some h
      exact ⟨a :: as, by rw [List.map_cons, ha, has]⟩

theorem optText_join : ∀ (a : MountArg) (as : List MountArg),
    optText (a :: as) = a.text ++ (as.map MountArg.text).flatMap (fun x => ',' :: x)
  | a, [] => by simp [optText]
  | a, b :: as => by rw [optText, optText_join b as]; simp

theorem parseOptArgs_some : ∀ {xs : List Str} {s s' : MountOptState}, parseOptArgs s xs = some s' →
    ∃ gs : List (List MountArg), gs.map optText = xs ∧ ∀ g ∈ gs, g ≠ [] ∧ ∀ a ∈ g, ',' ∉ a.text
  | [], _, _, _ => ⟨[], rfl, by simp⟩
  | x :: xs, s, s', h => by
    unfold parseOptArgs at h
    split at h
    · cases h
    · rename_i s1 h1
      obtain ⟨gs, hg1, hg2⟩ := parseOptArgs_some h
      obtain ⟨b, bs, e1, e2, e3⟩ := splitComma_join x
      rw [e1] at h1
      obtain ⟨as, has⟩ := parsePieces_some h1
      cases as with
      | nil => simp at has
      | cons a as =>
        simp only [List.map_cons, List.cons.injEq] at has
        refine ⟨(a :: as) :: gs, ?_, ?_⟩
        · rw [List.map_cons, hg1, optText_join, has.1, has.2, ← e2]
        · intro g hg
          rcases List.mem_cons.1 hg with rfl | hg
          · refine ⟨by simp, ?_⟩
            intro y hy
            apply e3
            rw [← has.1, ← has.2, ← List.map_cons]
            exact List.mem_map_of_mem hy
          · exact hg2 g hg

/-- C72: the documented options, spread over any number of `-o` and separated by commas, are understood in the
order in which they are given; the last of `fork` and `nofork` decides; a file system name and a subtype are
added exactly if the user gives none. -/
theorem C72_mount_options (src : Str) (gs : List (List MountArg)) (h : ∀ g ∈ gs, g ≠ [] ∧ ∀ a ∈ g, ',' ∉ a.text) :
    convertMountOpts src (gs.map optText) =
      some (forks gs.flatten, mountsOf gs.flatten ++ defaultNames src gs.flatten) := by
  unfold convertMountOpts
  rw [parseOptArgs_texts gs _ h]
  simp only [foldl_opts, foldl_fork, foldl_fsname, foldl_subtype, List.nil_append, Bool.false_or]
  have hf : (match gs.flatten.reverse.find? (fun a => a = .fork ∨ a = .noFork) with
      | some a => decide (a = .fork)
      | none => true) = forks gs.flatten := rfl
  rw [hf]
  unfold defaultNames
  generalize gs.flatten.any (fun a => match a with | .mount (.fsName _) => true | _ => false) = b1
  generalize gs.flatten.any (fun a => match a with | .mount (.subtype _) => true | _ => false) = b2
  cases b1 <;> cases b2 <;> simp

/-- C72: anything else is rejected: if the options are accepted, every `-o` is a list of documented options. -/
theorem C72_rejects_unknown {src : Str} {args : List Str} {r : Bool × List MountOpt}
    (h : convertMountOpts src args = some r) :
    ∃ gs : List (List MountArg), gs.map optText = args ∧ ∀ g ∈ gs, g ≠ [] ∧ ∀ a ∈ g, ',' ∉ a.text := by
  unfold convertMountOpts at h
  split at h
  · cases h
  · exact parseOptArgs_some (by assumption)

/-- `-o ro,nofork -o fsname=disc,fork,nofork`. -/
example : convertMountOpts ['x'] ["ro,nofork".toList, "fsname=disc,fork,nofork".toList] =
    some (false, [.ro, .fsName "disc".toList, .subtype "xdvdfs".toList]) :=
  C72_mount_options ['x'] [[.mount .ro, .noFork], [.mount (.fsName "disc".toList), .fork, .noFork]] (by decide)

/-- `-o ro,sync` is rejected. -/
example : convertMountOpts ['x'] ["ro,sync".toList] = none := by decide

/-! ## C71: a mounted image is read-only -/

theorem and_flags (f a b : UInt32) : f &&& (a ||| b) = (f &&& a) ||| (f &&& b) := by
  apply UInt32.toBitVec_inj.1
  simp [BitVec.and_or_distrib_left]

/-- C71: opening a file or a directory of a mounted image is refused exactly if the flags ask for writing
(`O_WRONLY = 1`, `O_RDWR = 2`), creating (`O_CREAT = 0x40`) or truncating (`O_TRUNC = 0x200`), whatever
else they ask for. -/
theorem C71_read_only (m : Mount) (c : FuseCache) (ino : Nat) (flags : UInt32) :
    (fuseStep m c (.open ino flags) = .ok (.error .ENOTSUP, c) ↔
      flags &&& 0x1 ≠ 0 ∨ flags &&& 0x2 ≠ 0 ∨ flags &&& 0x40 ≠ 0 ∨ flags &&& 0x200 ≠ 0) ∧
    (fuseStep m c (.open ino flags) = .ok (.opened, c) ↔
      ¬ (flags &&& 0x1 ≠ 0 ∨ flags &&& 0x2 ≠ 0 ∨ flags &&& 0x40 ≠ 0 ∨ flags &&& 0x200 ≠ 0)) ∧
    fuseStep m c (.opendir ino flags) = fuseStep m c (.open ino flags) := by
  have key : flags &&& unsupportedFlags ≠ 0 ↔
      flags &&& 0x1 ≠ 0 ∨ flags &&& 0x2 ≠ 0 ∨ flags &&& 0x40 ≠ 0 ∨ flags &&& 0x200 ≠ 0 := by
    unfold unsupportedFlags
    rw [and_flags, and_flags, and_flags]
    simp only [ne_eq, UInt32.or_eq_zero_iff]
    simp only [Classical.not_and_iff_not_or_not, or_assoc]
  refine ⟨?_, ?_, rfl⟩
  · rw [← key]
    simp only [fuseStep, fuseOpen]
    split
    · rename_i h; exact ⟨fun _ => h, fun _ => rfl⟩
    · rename_i h; exact ⟨fun h' => (nomatch h'), fun h' => absurd h' h⟩
  · rw [← key]
    simp only [fuseStep, fuseOpen]
    split
    · rename_i h; exact ⟨fun h' => (nomatch h'), fun h' => absurd h h'⟩
    · rename_i h; exact ⟨fun _ => h, fun _ => rfl⟩

/-- Appending to a file: `O_WRONLY | O_APPEND`. -/
example (m : Mount) (c : FuseCache) : fuseStep m c (.open 5 0x401) = .ok (.error .ENOTSUP, c) :=
  (C71_read_only m c 5 0x401).1.2 (.inl (by decide))

end Xdvdfs.Props
