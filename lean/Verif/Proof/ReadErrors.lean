import Verif.Spec.ReadErrors
import Verif.Model.ImgFs
import Verif.Model.Unpack
import Verif.Props.Reader

/-!
# Helpers for read errors
-/

namespace Xdvdfs

open Spec PM

/-! ## Outcomes -/

theorem soe_refl {α : Type _} (r : Res α) : SameOrError r r := .inl rfl

theorem soe_err {α : Type _} {e : Err} {r : Res α} : SameOrError (.err e) r := .inr ⟨e, rfl⟩

theorem soe_bind {α β : Type _} {r' r : Res α} {f' f : α → Res β} (h : SameOrError r' r)
    (hf : ∀ a, r = .ok a → SameOrError (f' a) (f a)) : SameOrError (r' >>= f') (r >>= f) := by
  rcases h with rfl | ⟨e, rfl⟩
  · cases hr : r' with
    | ok a => exact hf a hr
    | err e => exact .inl rfl
    | panic => exact .inl rfl
    | hang => exact .inl rfl
  · exact .inr ⟨e, rfl⟩

theorem soe_ok {α : Type _} {r' r : Res α} {a : α} (h : SameOrError r' r) (hr : r' = .ok a) : r = .ok a := by
  rcases h with rfl | ⟨e, rfl⟩
  · exact hr
  · cases hr

/-! ## Reading -/

section
variable {a b : Dev} (h : FailsMore a b)
include h

theorem fails_offset (o : Nat) : FailsMore (offsetDev a o) (offsetDev b o) := by
  intro off n
  show SameOrError (offsetRead _ _ _ _) (offsetRead _ _ _ _)
  unfold offsetRead
  split
  · exact h _ _
  · exact soe_refl _

theorem fails_readVolume : SameOrError (readVolume a) (readVolume b) := by
  unfold readVolume
  rcases h (sectorSize * 32) 2048 with e | ⟨e, he⟩
  · rw [e]; exact soe_refl _
  · rw [he]; exact soe_err

theorem fails_readDirent (off : Nat) : SameOrError (readDirent a off) (readDirent b off) := by
  unfold readDirent
  refine soe_bind (h _ _) fun buf _ => ?_
  split
  · exact soe_refl _
  · exact soe_bind (h _ _) fun _ _ => soe_refl _

theorem fails_findLoop (tab : Region) (name : Str) : ∀ (fuel off : Nat),
    SameOrError (findLoop a tab name fuel off) (findLoop b tab name fuel off) := by
  intro fuel
  induction fuel with
  | zero => intro off; exact soe_refl _
  | succ fuel ih =>
    intro off
    unfold findLoop
    refine soe_bind (fails_readDirent h off) fun d? _ => soe_bind (soe_refl _) fun d _ => soe_bind (soe_refl _) fun n _ => ?_
    split
    · exact soe_refl _
    · split
      · exact soe_refl _
      · exact soe_bind (soe_refl _) fun _ _ => ih _

theorem fails_findDirent (tab : Region) (name : Str) (fuel : Nat) :
    SameOrError (findDirent a tab name fuel) (findDirent b tab name fuel) := by
  unfold findDirent
  split
  · exact soe_refl _
  · exact soe_bind (soe_refl _) fun _ _ => fails_findLoop h _ _ _ _

theorem fails_walkSegments (fuel : Nat) : ∀ (segs : List Str) (tab : Region),
    SameOrError (walkSegments a fuel tab segs) (walkSegments b fuel tab segs) := by
  intro segs
  induction segs with
  | nil => intro tab; exact soe_refl _
  | cons s segs ih =>
    intro tab
    unfold walkSegments
    refine soe_bind (fails_findDirent h _ _ _) fun d _ => ?_
    split
    · exact soe_refl _
    · exact soe_bind (soe_refl _) fun _ _ => ih _

theorem fails_walkPath (tab : Region) (path : Str) (fuel : Nat) :
    SameOrError (walkPath a tab path fuel) (walkPath b tab path fuel) := by
  unfold walkPath
  split
  · exact soe_refl _
  · exact fails_walkSegments h _ _ _

theorem fails_walkLoop (tab : Region) : ∀ (fuel : Nat) (stack : List Nat) (acc : List DirEnt),
    SameOrError (walkLoop a tab fuel stack acc) (walkLoop b tab fuel stack acc) := by
  intro fuel
  induction fuel with
  | zero => intro stack acc; cases stack <;> exact soe_refl _
  | succ fuel ih =>
    intro stack acc
    cases stack with
    | nil => exact soe_refl _
    | cons t stack =>
      unfold walkLoop
      refine soe_bind (soe_refl _) fun _ _ => soe_bind (fails_readDirent h _) fun d? _ => ?_
      split
      · exact ih _ _
      · exact ih _ _

theorem fails_walkDirentTree (tab : Region) (fuel : Nat) :
    SameOrError (walkDirentTree a tab fuel) (walkDirentTree b tab fuel) := by
  unfold walkDirentTree
  split
  · exact soe_refl _
  · exact fails_walkLoop h _ _ _ _

theorem fails_fileTreeLoop (wf : Nat) : ∀ (fuel : Nat) (stack : List (Str × Region)) (acc : List (Str × DirEnt)),
    SameOrError (fileTreeLoop a wf fuel stack acc) (fileTreeLoop b wf fuel stack acc) := by
  intro fuel
  induction fuel with
  | zero => intro stack acc; cases stack <;> exact soe_refl _
  | succ fuel ih =>
    intro stack acc
    cases stack with
    | nil => exact soe_refl _
    | cons t stack =>
      obtain ⟨parent, tab⟩ := t
      unfold fileTreeLoop
      exact soe_bind (fails_walkDirentTree h _ _) fun _ _ => ih _ _

theorem fails_fileTree (tab : Region) (fuel : Nat) : SameOrError (fileTree a tab fuel) (fileTree b tab fuel) :=
  fails_fileTreeLoop h _ _ _ _

theorem fails_nextSector (s : Scan) : SameOrError (s.nextSector a) (s.nextSector b) := by
  unfold Scan.nextSector
  simp only
  split
  · exact soe_refl _
  · exact soe_bind (h _ _) fun _ _ => soe_refl _

theorem fails_step (s : Scan) : SameOrError (s.step a) (s.step b) := by
  unfold Scan.step
  refine soe_bind (soe_refl _) fun _ _ => ?_
  simp only
  split
  · split
    · exact soe_bind (fails_nextSector h _) fun _ _ => soe_refl _
    · exact soe_refl _
  · refine soe_bind (soe_refl _) fun _ _ => ?_
    split
    · exact soe_bind (fails_nextSector h _) fun _ _ => soe_refl _
    · exact soe_refl _

theorem fails_nextLoop : ∀ (fuel : Nat) (s : Scan), SameOrError (Scan.nextLoop a fuel s) (Scan.nextLoop b fuel s) := by
  intro fuel
  induction fuel with
  | zero => intro s; exact soe_refl _
  | succ fuel ih =>
    intro s
    unfold Scan.nextLoop
    refine soe_bind (fails_step h s) fun r _ => ?_
    split
    · exact ih _
    · exact soe_refl _

theorem fails_next (fuel : Nat) (s : Scan) : SameOrError (s.next a fuel) (s.next b fuel) := by
  unfold Scan.next
  split
  · exact soe_refl _
  · exact fails_nextLoop h _ _

theorem fails_scanInit (tab : Region) : SameOrError (scanInit a tab) (scanInit b tab) := by
  unfold scanInit
  split
  · exact soe_refl _
  · exact soe_bind (soe_refl _) fun _ _ => soe_bind (h _ _) fun _ _ => soe_refl _

theorem fails_scanDrain : ∀ (fuel : Nat) (s : Scan) (acc : List DirEnt),
    SameOrError (scanDrain a fuel s acc) (scanDrain b fuel s acc) := by
  intro fuel
  induction fuel with
  | zero => intro s acc; exact soe_refl _
  | succ fuel ih =>
    intro s acc
    unfold scanDrain
    refine soe_bind (fails_next h _ s) fun r _ => ?_
    split
    · exact soe_refl _
    · exact ih _ _

theorem fails_scanAll (tab : Region) (fuel : Nat) : SameOrError (scanAll a tab fuel) (scanAll b tab fuel) :=
  soe_bind (fails_scanInit h tab) fun _ _ => fails_scanDrain h _ _ _

theorem fails_readDataAll (d : DiskData) : SameOrError (readDataAll a d) (readDataAll b d) := by
  unfold readDataAll
  split
  · exact soe_refl _
  · exact soe_bind (soe_refl _) fun _ _ => h _ _

theorem fails_readDataOffset (d : DiskData) (size off : Nat) :
    SameOrError (readDataOffset a d size off) (readDataOffset b d size off) := by
  unfold readDataOffset
  simp only
  split
  · exact soe_refl _
  · exact soe_bind (soe_refl _) fun _ _ => h _ _

theorem fails_checksumLoop : ∀ (l : List (Bytes × DirEnt)) (acc : Bytes),
    SameOrError (checksumLoop a l acc) (checksumLoop b l acc) := by
  intro l
  induction l with
  | nil => intro acc; exact soe_refl _
  | cons x l ih =>
    intro acc
    obtain ⟨p, f⟩ := x
    unfold checksumLoop
    simp only
    split
    · exact ih _
    · exact soe_bind (fails_readDataAll h _) fun _ _ => ih _

theorem fails_checksum {H : Type} (hash : Bytes → H) (vol : VolDesc) (fuel : Nat) :
    SameOrError (checksum hash a vol fuel) (checksum hash b vol fuel) :=
  soe_bind (soe_bind (fails_fileTree h _ _) fun _ _ => fails_checksumLoop h _ _) fun _ _ => soe_refl _

/-! ## The commands that read -/

theorem fails_openVolume {α : Type} {f' f : Dev × VolDesc → Res α} (hf : ∀ v, SameOrError (f' (a, v)) (f (b, v))) :
    SameOrError (openVolume true a >>= f') (openVolume true b >>= f) := by
  unfold openVolume openImage
  simp only [if_true, Res.ok_bind, Res.pure_eq, bind_assoc]
  exact soe_bind (fails_readVolume h) fun v _ => hf v

theorem fails_cmdLs (path : Str) (scan : Bool) (fuel : Nat) :
    SameOrError (cmdLs true a path scan fuel) (cmdLs true b path scan fuel) := by
  unfold cmdLs
  refine fails_openVolume h fun v => ?_
  simp only
  refine soe_bind ?_ fun tab _ => soe_bind ?_ fun _ _ => soe_refl _
  · split
    · exact soe_refl _
    · exact soe_bind (fails_walkPath h _ _ _) fun _ _ => soe_refl _
  · split
    · exact fails_scanAll h _ _
    · exact fails_walkDirentTree h _ _

theorem fails_cmdTree (checked : Bool) (image : Str) (fuel : Nat) :
    SameOrError (cmdTree checked true a image fuel) (cmdTree checked true b image fuel) := by
  unfold cmdTree
  refine fails_openVolume h fun v => ?_
  simp only
  exact soe_bind (fails_fileTree h _ _) fun _ _ => soe_refl _

theorem fails_printSubdir (checked : Bool) (tab : Region) (fuel : Nat) :
    SameOrError (printSubdir checked a tab fuel) (printSubdir checked b tab fuel) :=
  soe_bind (fails_walkDirentTree h _ _) fun _ _ => soe_refl _

theorem fails_cmdInfo (checked : Bool) (path : Option Str) (fuel : Nat) :
    SameOrError (cmdInfo checked true a path fuel) (cmdInfo checked true b path fuel) := by
  unfold cmdInfo
  refine fails_openVolume h fun v => ?_
  simp only
  split
  · exact soe_refl _
  · split
    · exact soe_bind (fails_printSubdir h _ _ _) fun _ _ => soe_refl _
    · refine soe_bind (fails_walkPath h _ _ _) fun d _ => soe_bind (soe_refl _) fun i _ => ?_
      split
      · exact soe_bind (fails_printSubdir h _ _ _) fun _ _ => soe_refl _
      · exact soe_refl _

omit h in
/-- What `md5Tree` prints after what was printed before. -/
theorem md5Tree_out {H : Type} (hash : Bytes → H) (dev : Dev) (base : Str) : ∀ (tree : List (Str × DirEnt))
    (out : List (H × Str)), out <+: (md5Tree hash dev base tree out).2 := by
  intro tree
  induction tree with
  | nil => intro out; exact List.prefix_refl _
  | cons x xs ih =>
    intro out
    unfold md5Tree
    simp only
    split
    · exact (List.prefix_append _ _).trans (ih _)
    · exact List.prefix_refl _
    · exact List.prefix_refl _
    · exact List.prefix_refl _

theorem fails_md5Tree {H : Type} (hash : Bytes → H) (base : Str) : ∀ (tree : List (Str × DirEnt)) (out : List (H × Str)),
    md5Tree hash a base tree out = md5Tree hash b base tree out ∨
    (∃ e, (md5Tree hash a base tree out).1 = .err e) ∧
      (md5Tree hash a base tree out).2 <+: (md5Tree hash b base tree out).2 := by
  intro tree
  induction tree with
  | nil => intro out; exact .inl rfl
  | cons x xs ih =>
    intro out
    rcases fails_readDataAll h x.2.node.dirent with e | ⟨e, he⟩
    · simp only [md5Tree, e]
      cases readDataAll b x.2.node.dirent with
      | ok d => exact ih _
      | err e => exact .inl rfl
      | panic => exact .inl rfl
      | hang => exact .inl rfl
    · refine .inr ⟨⟨e, ?_⟩, ?_⟩
      · simp only [md5Tree, he]
      · rw [show (md5Tree hash a base (x :: xs) out).2 = out by simp only [md5Tree, he]]
        exact md5Tree_out hash b base (x :: xs) out

theorem fails_cmdMd5 {H : Type} (hash : Bytes → H) (vol : VolDesc) (path : Option Str) (fuel : Nat) :
    cmdMd5 hash a vol path fuel = cmdMd5 hash b vol path fuel ∨
    (∃ e, (cmdMd5 hash a vol path fuel).1 = .err e) ∧
      (cmdMd5 hash a vol path fuel).2 <+: (cmdMd5 hash b vol path fuel).2 := by
  have tree : ∀ base tab, ∀ r' r : Res Unit × List (H × Str),
      r' = (match fileTree a tab fuel with
        | .ok tree => md5Tree hash a base tree []
        | .err e => (.err e, [])
        | .panic => (.panic, [])
        | .hang => (.hang, [])) →
      r = (match fileTree b tab fuel with
        | .ok tree => md5Tree hash b base tree []
        | .err e => (.err e, [])
        | .panic => (.panic, [])
        | .hang => (.hang, [])) →
      r' = r ∨ (∃ e, r'.1 = .err e) ∧ r'.2 <+: r.2 := by
    rintro base tab r' r rfl rfl
    rcases fails_fileTree h tab fuel with e | ⟨e, he⟩
    · rw [e]
      cases fileTree b tab fuel with
      | ok t => exact fails_md5Tree h hash base t []
      | err e => exact .inl rfl
      | panic => exact .inl rfl
      | hang => exact .inl rfl
    · rw [he]; exact .inr ⟨⟨e, rfl⟩, List.nil_prefix⟩
  unfold cmdMd5
  cases path with
  | none => exact tree _ _ _ _ rfl rfl
  | some p =>
    simp only
    rcases fails_walkPath h vol.root p fuel with e | ⟨e, he⟩
    · rw [e]
      cases walkPath b vol.root p fuel with
      | ok d =>
        simp only
        cases d.node.dirent.direntTable with
        | some tab => exact tree _ _ _ _ rfl rfl
        | none =>
          simp only
          rcases fails_readDataAll h d.node.dirent with e | ⟨e, he⟩
          · rw [e]; exact .inl rfl
          · rw [he]; exact .inr ⟨⟨e, rfl⟩, List.nil_prefix⟩
      | err e => exact .inl rfl
      | panic => exact .inl rfl
      | hang => exact .inl rfl
    · rw [he]; exact .inr ⟨⟨e, rfl⟩, List.nil_prefix⟩

omit h in
theorem fails_ofRes {α H : Type} (f : α → List (Line H)) {r' r : Res α} (hr : SameOrError r' r) :
    PrintsLess (Printed.ofRes f r') (Printed.ofRes f r) := by
  rcases hr with rfl | ⟨e, rfl⟩
  · exact .inl rfl
  · exact .inr ⟨⟨e, rfl⟩, List.nil_prefix⟩

omit h in
theorem lsScanLoop_out (dev : Dev) : ∀ (fuel : Nat) (s : Scan) (out : List Str), out <+: (lsScanLoop dev fuel s out).1 := by
  intro fuel
  induction fuel with
  | zero => intro s out; exact List.prefix_refl _
  | succ fuel ih =>
    intro s out
    simp only [lsScanLoop]
    split
    · exact List.prefix_refl _
    · exact (List.prefix_append _ _).trans (ih _ _)
    · exact List.prefix_refl _
    · exact List.prefix_refl _
    · exact List.prefix_refl _

theorem fails_lsScanLoop : ∀ (fuel : Nat) (s : Scan) (out : List Str),
    lsScanLoop a fuel s out = lsScanLoop b fuel s out ∨
      (∃ e, (lsScanLoop a fuel s out).2 = .err e) ∧ (lsScanLoop a fuel s out).1 <+: (lsScanLoop b fuel s out).1 := by
  intro fuel
  induction fuel with
  | zero => intro s out; exact .inl rfl
  | succ fuel ih =>
    intro s out
    rcases fails_next h (fuel + 1) s with e | ⟨e, he⟩
    · simp only [lsScanLoop, e]
      split
      · exact .inl rfl
      · exact ih _ _
      · exact .inl rfl
      · exact .inl rfl
      · exact .inl rfl
    · refine .inr ⟨⟨e, ?_⟩, ?_⟩
      · simp only [lsScanLoop, he]
      · refine List.IsPrefix.trans (l₂ := out) ?_ (lsScanLoop_out b _ _ _)
        simp only [lsScanLoop, he]
        exact List.prefix_refl _

theorem fails_lsScanInit (path : Str) (fuel : Nat) :
    SameOrError (lsScanInit a path fuel) (lsScanInit b path fuel) := by
  unfold lsScanInit
  refine soe_bind (fails_readVolume h) fun v _ => soe_bind ?_ fun tab _ => fails_scanInit h _
  split
  · exact soe_refl _
  · exact soe_bind (fails_walkPath h _ _ _) fun _ _ => soe_refl _

theorem fails_lsOn {H : Type} (r : Reader H) (path : Str) (scan : Bool) :
    PrintsLess (lsOn r a path scan) (lsOn r b path scan) := by
  unfold lsOn
  split
  · rcases fails_lsScanInit h path r.fuel with e | ⟨e, he⟩
    · rw [e]
      cases lsScanInit b path r.fuel with
      | ok s =>
        simp only
        rcases fails_lsScanLoop h r.fuel s [] with e | ⟨⟨e, h1⟩, h2⟩
        · rw [e]; exact .inl rfl
        · exact .inr ⟨⟨e, h1⟩, h2.map _⟩
      | err e => exact .inl rfl
      | panic => exact .inl rfl
      | hang => exact .inl rfl
    · rw [he]; exact .inr ⟨⟨e, rfl⟩, List.nil_prefix⟩
  · exact fails_ofRes _ (fails_cmdLs h _ _ _)

theorem fails_readOn {H : Type} (r : Reader H) (image : Str) (cmd : ReadCmd) :
    PrintsLess (readOn r a image cmd) (readOn r b image cmd) := by
  cases cmd with
  | ls path scan => exact fails_lsOn h r _ _
  | tree => exact fails_ofRes _ (fails_cmdTree h _ _ _)
  | info path => exact fails_ofRes _ (fails_cmdInfo h _ _ _)
  | md5 path =>
    show PrintsLess (md5On r a path) (md5On r b path)
    unfold md5On
    rcases fails_readVolume h with e | ⟨e, he⟩
    · rw [e]
      cases readVolume b with
      | ok v =>
        simp only
        rcases fails_cmdMd5 h r.hash v path r.fuel with e | ⟨⟨e, h1⟩, h2⟩
        · rw [e]; exact .inl rfl
        · exact .inr ⟨⟨e, h1⟩, h2.map _⟩
      | err e => exact .inl rfl
      | panic => exact .inl rfl
      | hang => exact .inl rfl
    · rw [he]; exact .inr ⟨⟨e, rfl⟩, List.nil_prefix⟩
  | checksum =>
    show PrintsLess (checksumOn r a image) (checksumOn r b image)
    unfold checksumOn
    rcases fails_readVolume h with e | ⟨e, he⟩
    · rw [e]
      cases readVolume b with
      | ok v => exact fails_ofRes _ (fails_checksum h _ _ _)
      | err e => exact .inl rfl
      | panic => exact .inl rfl
      | hang => exact .inl rfl
    · rw [he]; exact .inr ⟨⟨e, rfl⟩, List.nil_prefix⟩

end

/-! ## A shorter file -/

theorem fails_take (img : Bytes) (n : Nat) : FailsMore (fileDev (img.take n)) (fileDev img) := by
  intro off m
  show SameOrError (fileRead (img.take n) off m) (fileRead img off m)
  unfold fileRead
  split
  · exact soe_refl _
  · split
    · rename_i h1
      have h2 : off + m ≤ img.length := by rw [List.length_take] at h1; omega
      have h3 : off + m ≤ n := by rw [List.length_take] at h1; omega
      rw [if_pos h2]
      refine .inl (congrArg Res.ok ?_)
      unfold slice
      rw [List.drop_take, List.take_take, Nat.min_eq_left (by omega)]
    · exact soe_err

theorem offset_sane {dev : Dev} (hd : dev.SaneBelow (2 ^ 45)) {o : Nat} (ho : o ∈ xdvdOffsets) :
    (offsetDev dev o).SaneBelow (2 ^ 44) := by
  have ho : o < 2 ^ 44 := (by decide : ∀ o ∈ xdvdOffsets, o < 2 ^ 44) o ho
  intro off n hoff
  show (offsetRead dev.read o off n).Returns
  unfold offsetRead
  rw [if_pos (by omega)]
  exact hd _ _ (by omega)

theorem readVolume_no_panic {dev : Dev} (hd : dev.SaneBelow (2 ^ 45)) {o : Nat} (ho : o ∈ xdvdOffsets) :
    readVolume (offsetDev dev o) ≠ .panic ∧ readVolume (offsetDev dev o) ≠ .hang := by
  rcases C06_read_volume_total _ (offset_sane hd ho) with ⟨v, h⟩ | h <;> rw [h] <;> exact ⟨nofun, nofun⟩

theorem readVolume_volumeAt {dev : Dev} {o : Nat} (ho : o ∈ xdvdOffsets) {v : VolDesc}
    (h : readVolume (offsetDev dev o) = .ok v) : VolumeAt dev o := by
  have ho : o < 2 ^ 44 := (by decide : ∀ o ∈ xdvdOffsets, o < 2 ^ 44) o ho
  obtain ⟨b, hb, hval, _⟩ := (C06_read_volume_iff _ _).mp h
  have e : (offsetDev dev o).read 65536 2048 = dev.read (o + 65536) 2048 := by
    show offsetRead dev.read o 65536 2048 = _
    unfold offsetRead
    rw [if_pos (by omega), Nat.add_comm]
  exact ⟨b, e ▸ hb, hval⟩

/-- With one volume, the same volume is found or none. -/
theorem fails_offsetNew {a b : Dev} (h : FailsMore a b) (one : OneVolume b) (sane : b.SaneBelow (2 ^ 45)) :
    SameOrError (offsetNew a) (offsetNew b) := by
  have key : ∀ os, (∀ o ∈ os, o ∈ xdvdOffsets) → SameOrError (offsetNewLoop a os) (offsetNewLoop b os) := by
    intro os
    induction os with
    | nil => intro _; exact soe_refl _
    | cons o os ih =>
      intro hs
      rcases fails_readVolume (fails_offset h o) with e | ⟨e, he⟩
      · unfold offsetNewLoop
        rw [e]
        cases readVolume (offsetDev b o) with
        | ok v => exact .inl rfl
        | err e => exact ih fun o ho => hs o (List.mem_cons_of_mem _ ho)
        | panic => exact .inl rfl
        | hang => exact .inl rfl
      · have hrest := ih fun o ho => hs o (List.mem_cons_of_mem _ ho)
        unfold offsetNewLoop
        rw [he]
        cases hb : readVolume (offsetDev b o) with
        | err e' => exact hrest
        | ok v =>
          right
          have none_ : ∀ os, (∀ o' ∈ os, o' ∈ xdvdOffsets) → (∀ o' ∈ os, o' = o → ∃ e, readVolume (offsetDev a o') = .err e) →
              ∃ e, offsetNewLoop a os = .err e := by
            intro os
            induction os with
            | nil => intro _ _; exact ⟨_, rfl⟩
            | cons o' os ih' =>
              intro h1 h2
              have hrest := ih' (fun x hx => h1 x (List.mem_cons_of_mem _ hx)) (fun x hx => h2 x (List.mem_cons_of_mem _ hx))
              have herr : ∃ e, readVolume (offsetDev a o') = .err e := by
                by_cases ho : o' = o
                · exact h2 o' List.mem_cons_self ho
                · rcases fails_readVolume (fails_offset h o') with e1 | he1
                  · cases hb' : readVolume (offsetDev b o') with
                    | ok v' =>
                      exact absurd (one o' (h1 o' List.mem_cons_self) o (hs o List.mem_cons_self)
                        (readVolume_volumeAt (h1 o' List.mem_cons_self) hb') (readVolume_volumeAt (hs o List.mem_cons_self) hb)) ho
                    | err e => exact ⟨e, e1.trans hb'⟩
                    | panic => exact absurd hb' (readVolume_no_panic sane (h1 o' List.mem_cons_self)).1
                    | hang => exact absurd hb' (readVolume_no_panic sane (h1 o' List.mem_cons_self)).2
                  · exact he1
              obtain ⟨e, he⟩ := herr
              unfold offsetNewLoop
              rw [he]
              exact hrest
          exact none_ os (fun x hx => hs x (List.mem_cons_of_mem _ hx)) (fun x _ hx => ⟨e, hx ▸ he⟩)
        | panic => exact absurd hb (readVolume_no_panic sane (hs o List.mem_cons_self)).1
        | hang => exact absurd hb (readVolume_no_panic sane (hs o List.mem_cons_self)).2
  exact key xdvdOffsets fun _ h => h

/-! ## Packing -/

/-- The same outcome and state, or an error. -/
def FailsM {σ α : Type} (f' f : PM σ α) : Prop := ∀ s, f' s = f s ∨ ∃ e, (f' s).1 = .err e

theorem failsM_refl {σ α : Type} (f : PM σ α) : FailsM f f := fun _ => .inl rfl

theorem failsM_bind {σ α β : Type} {x' x : PM σ α} {f' f : α → PM σ β} (h : FailsM x' x) (hf : ∀ a, FailsM (f' a) (f a)) :
    FailsM (x' >>= f') (x >>= f) := by
  intro s
  show PM.bind x' f' s = PM.bind x f s ∨ ∃ e, (PM.bind x' f' s).1 = .err e
  unfold PM.bind
  rcases h s with e | ⟨e, he⟩
  · rw [e]
    cases x s with
    | mk r s' =>
      cases r with
      | ok a => exact hf a s'
      | err e => exact .inl rfl
      | panic => exact .inl rfl
      | hang => exact .inl rfl
  · cases hx : x' s with
    | mk r s' =>
      rw [hx] at he
      simp only at he
      subst he
      exact .inr ⟨e, rfl⟩

theorem failsM_lift {σ α : Type} {r' r : Res α} (h : SameOrError r' r) : FailsM (σ := σ) (lift r') (lift r) := by
  intro s
  rcases h with rfl | ⟨e, rfl⟩
  · exact .inl rfl
  · exact .inr ⟨e, rfl⟩

theorem failsM_onDev {σ α : Type} {f' f : σ → Res α × σ} (h : ∀ d, f' d = f d ∨ ∃ e, (f' d).1 = .err e) :
    FailsM (onDev f') (onDev f) := by
  intro s
  rcases h s.dev with e | ⟨e, he⟩
  · left; unfold onDev; rw [e]
  · exact .inr ⟨e, he⟩

/-- An environment whose source fails more often. -/
structure EnvFails {σ : Type} (bad good : PackEnv σ) : Prop where
  dir : ∀ p, SameOrError (bad.readDir p) (good.readDir p)
  str : bad.pathToString = good.pathToString
  write : bad.write = good.write
  copy : ∀ p i o n s, bad.copyIn p i o n s = good.copyIn p i o n s ∨ ∃ e, (bad.copyIn p i o n s).1 = .err e
  len : bad.len = good.len

section
variable {σ : Type} {a b : PackEnv σ} (h : EnvFails a b)
include h

theorem failsM_dirTreeLoop : ∀ (fuel : Nat) (dirs : List Path) (out : List (Path × List FileEntry)),
    FailsM (dirTreeLoop a fuel dirs out) (dirTreeLoop b fuel dirs out) := by
  intro fuel
  induction fuel with
  | zero => intro dirs out; cases dirs <;> exact failsM_refl _
  | succ fuel ih =>
    intro dirs out
    cases dirs with
    | nil => exact failsM_refl _
    | cons d ds =>
      unfold dirTreeLoop
      exact failsM_bind (failsM_lift (h.dir d)) fun l => failsM_bind (failsM_refl _) fun _ => ih _ _

theorem failsM_packListing (path : Path) : ∀ (l : List Listing) (m : PathMap Nat),
    FailsM (packListing a path m l) (packListing b path m l) := by
  intro l
  induction l with
  | nil => intro m; exact failsM_refl _
  | cons e l ih =>
    intro m
    unfold packListing
    simp only [h.str]
    refine failsM_bind (failsM_refl _) fun _ => ?_
    split
    · exact ih _
    · exact failsM_bind (failsM_onDev (h.copy _ _ _ _)) fun _ => ih _

theorem failsM_packDirs : ∀ (tables : PathMap TabWriter) (m : PathMap Nat) (next : Nat),
    FailsM (packDirs a tables m next) (packDirs b tables m next) := by
  intro tables
  induction tables with
  | nil => intro m next; exact failsM_refl _
  | cons t ts ih =>
    intro m next
    obtain ⟨path, w⟩ := t
    unfold packDirs
    rw [h.str, h.write]
    refine failsM_bind (failsM_refl _) fun sector => failsM_bind (failsM_refl _) fun x => ?_
    obtain ⟨repr, next⟩ := x
    exact failsM_bind (failsM_refl _) fun _ => failsM_bind (failsM_refl _) fun _ =>
      failsM_bind (failsM_packListing h path _ _) fun _ => ih _ _

theorem failsM_createFrom (dirtree : List (Path × List FileEntry)) : FailsM (createFrom a dirtree) (createFrom b dirtree) := by
  unfold createFrom padImage devLen
  rw [h.write, h.len]
  refine failsM_bind (failsM_refl _) fun tables => failsM_bind (failsM_refl _) fun x => ?_
  obtain ⟨rootPath, rootTab⟩ := x
  refine failsM_bind (failsM_refl _) fun rootSize => failsM_bind (failsM_refl _) fun y => ?_
  obtain ⟨rootSector, next⟩ := y
  exact failsM_bind (failsM_packDirs h _ _ _) fun _ => failsM_refl _

theorem failsM_createImage (fuel : Nat) : FailsM (createImage a fuel) (createImage b fuel) :=
  failsM_bind (failsM_dirTreeLoop h _ _ _) fun _ => failsM_createFrom h _

end

theorem writeChunks_returns (faults : Faults) : ∀ (cs : List Bytes) (off : Nat) (f : ImgFile),
    (writeChunks faults off cs f).1 = .ok () ∨ ∃ e, (writeChunks faults off cs f).1 = .err e := by
  intro cs
  induction cs with
  | nil => intro off f; exact .inl rfl
  | cons c cs ih =>
    intro off f
    unfold writeChunks fileWrite
    cases faults f.trace.length with
    | none => exact ih _ _
    | some m => exact .inr ⟨_, rfl⟩

theorem envFails_file {S' S : SourceFs} (h : SourceFails S' S) (faults : Faults) :
    EnvFails (fileEnv S' faults) (fileEnv S faults) where
  dir := h.1
  str := h.2.1
  write := rfl
  len := rfl
  copy := by
    intro p i o n f
    rcases h.2.2 p i n with e | ⟨e, he⟩
    · left; simp only [fileEnv, e]
    · right
      simp only [fileEnv]
      rcases writeChunks_returns faults (S'.copy p i n).1 o f with h1 | ⟨e', h1⟩
      · cases hw : writeChunks faults o (S'.copy p i n).1 f with
        | mk r f' =>
          rw [hw] at h1
          simp only at h1
          subst h1
          exact ⟨e, he⟩
      · cases hw : writeChunks faults o (S'.copy p i n).1 f with
        | mk r f' =>
          rw [hw] at h1
          simp only at h1
          subst h1
          exact ⟨e', rfl⟩

/-! ## An image as the source -/

theorem fails_chunkLoop {a b : Dev} (h : FailsMore a b) (offset size : Nat) : ∀ (fuel copied : Nat),
    chunkLoop a offset size fuel copied = chunkLoop b offset size fuel copied ∨
      ∃ e, (chunkLoop a offset size fuel copied).2 = .err e := by
  intro fuel
  induction fuel with
  | zero => intro copied; exact .inl rfl
  | succ fuel ih =>
    intro copied
    unfold chunkLoop
    simp only
    split
    · rcases h (offset + copied) (min (1024 * 1024) (size - copied)) with e | ⟨e, he⟩
      · rw [e]
        cases b.read (offset + copied) (min (1024 * 1024) (size - copied)) with
        | ok d =>
          rcases ih (copied + min (1024 * 1024) (size - copied)) with e | ⟨e, he⟩
          · simp only [e]; exact .inl trivial
          · exact .inr ⟨e, he⟩
        | err e => exact .inl rfl
        | panic => exact .inl rfl
        | hang => exact .inl rfl
      · rw [he]; exact .inr ⟨e, rfl⟩
    · exact .inl rfl

/-- A copier that fails more often. -/
def CopierFails (c' c : Copier) : Prop := ∀ off n, c' off n = c off n ∨ ∃ e, (c' off n).2 = .err e

theorem fails_defaultCopier {a b : Dev} (h : FailsMore a b) : CopierFails (defaultCopier a) (defaultCopier b) :=
  fun off n => fails_chunkLoop h off n _ _

theorem fails_imgCopy {c' c : Copier} (h : CopierFails c' c) (fs : ImgFs) (d : Dev) (p : Path) (off n : Nat) :
    ImgFs.copy c' { fs with dev := d } p off n = ImgFs.copy c fs p off n ∨
      ∃ e, (ImgFs.copy c' { fs with dev := d } p off n).2 = .err e := by
  unfold ImgFs.copy
  cases fs.cache.get p with
  | ok o =>
    cases o with
    | none => exact .inl rfl
    | some x =>
      simp only
      split
      · exact .inl rfl
      · cases x.node.dirent.data.offset off with
        | ok o => exact h _ _
        | err e => exact .inl rfl
        | panic => exact .inl rfl
        | hang => exact .inl rfl
  | err e => exact .inl rfl
  | panic => exact .inl rfl
  | hang => exact .inl rfl

theorem fails_readEntries {a b : Dev} (h : FailsMore a b) : ∀ (fuel : Nat) (s : Scan) (t : Trie DirEnt) (acc : List FileEntry),
    SameOrError (readEntries a fuel s t acc) (readEntries b fuel s t acc) := by
  intro fuel
  induction fuel with
  | zero => intro s t acc; exact soe_refl _
  | succ fuel ih =>
    intro s t acc
    unfold readEntries
    refine soe_bind (fails_next h _ s) fun r _ => ?_
    split
    · exact soe_refl _
    · exact soe_bind (soe_refl _) fun _ _ => ih _ _ _

theorem fails_readTable {a b : Dev} (h : FailsMore a b) (fuel : Nat) (tab : Region) (t : Trie DirEnt) :
    SameOrError (readTable a fuel tab t) (readTable b fuel tab t) :=
  soe_bind (fails_scanInit h tab) fun _ _ => fails_readEntries h _ _ _ _

theorem fails_modifyName {α β : Type} {f' f : Trie α → Res (Option (Trie α × β))} (h : ∀ t, SameOrError (f' t) (f t)) :
    ∀ (n : Str) (t : Trie α), SameOrError (Trie.modifyName f' n t) (Trie.modifyName f n t) := by
  intro n
  induction n with
  | nil => intro t; exact h t
  | cons c cs ih =>
    intro t
    cases t with
    | node ks r =>
      unfold Trie.modifyName
      split
      · exact soe_refl _
      · exact soe_refl _
      · exact soe_bind (ih _) fun _ _ => soe_refl _

theorem fails_modifyRecord {α β : Type} {f' f : α → Trie α → Res (Option (Trie α × β))} (h : ∀ v t, SameOrError (f' v t) (f v t))
    (t : Trie α) : SameOrError (Trie.modifyRecord f' t) (Trie.modifyRecord f t) := by
  cases t with
  | node ks r =>
    cases r with
    | none => exact soe_refl _
    | some x =>
      obtain ⟨v, s⟩ := x
      unfold Trie.modifyRecord
      exact soe_bind (h v s) fun _ _ => soe_refl _

theorem fails_modifyDir {α β : Type} {f' f : α → Trie α → Res (Option (Trie α × β))} (h : ∀ v t, SameOrError (f' v t) (f v t)) :
    ∀ (p : Path) (t : Trie α), SameOrError (Trie.modifyDir f' p t) (Trie.modifyDir f p t) := by
  intro p
  induction p with
  | nil => intro t; exact fails_modifyRecord h t
  | cons c cs ih =>
    intro t
    cases cs with
    | nil => exact fails_modifyName (fails_modifyRecord h) c t
    | cons d ds =>
      unfold Trie.modifyDir
      exact fails_modifyName (fails_modifyRecord fun _ s => ih s) c t

/-- The same listing and cache on the other device. -/
def onDevice (d : Dev) (x : List FileEntry × ImgFs) : List FileEntry × ImgFs := (x.1, { x.2 with dev := d })

theorem fails_imgReadDir {d : Dev} (fs : ImgFs) (h : FailsMore d fs.dev) (fuel : Nat) (dir : Path) :
    SameOrError (ImgFs.readDir fuel { fs with dev := d } dir)
      (do let x ← ImgFs.readDir fuel fs dir; pure (onDevice d x)) := by
  unfold ImgFs.readDir
  split
  · simp only [bind_assoc, pure_bind]
    exact soe_bind (fails_readTable h _ _ _) fun x _ => soe_refl _
  · simp only [bind_assoc]
    refine soe_bind (fails_modifyDir (fun v t => soe_bind (soe_refl _) fun tab _ => soe_bind (fails_readTable h _ _ _) fun _ _ => soe_refl _) _ _)
      fun r _ => ?_
    cases r with
    | none => exact soe_refl _
    | some x => exact soe_refl _

/-- The same value on the other device. -/
def overDevice {α : Type} (d : Dev) (x : α × ImgFs) : α × ImgFs := (x.1, { x.2 with dev := d })

theorem pm_bind_assoc {σ α β γ : Type} (x : PM σ α) (f : α → PM σ β) (g : β → PM σ γ) :
    (x >>= f) >>= g = x >>= fun a => f a >>= g := by
  funext s
  show PM.bind (PM.bind x f) g s = PM.bind x (fun a => PM.bind (f a) g) s
  unfold PM.bind
  cases x s with
  | mk r s' => cases r <;> rfl

theorem pm_lift_bind {σ α β : Type} (r : Res α) (f : α → β) :
    (lift (do let x ← r; pure (f x)) : PM σ β) = lift r >>= fun x => pure (f x) := by
  funext s
  cases r <;> rfl

theorem failsM_imgTreeLoop {σ : Type} (d : Dev) (wf : Nat) : ∀ (fuel : Nat) (fs : ImgFs) (dirs : List Path)
    (out : List (Path × List FileEntry)), FailsMore d fs.dev →
    FailsM (σ := σ) (imgTreeLoop wf fuel { fs with dev := d } dirs out)
      (imgTreeLoop wf fuel fs dirs out >>= fun x => pure (overDevice d x)) := by
  intro fuel
  induction fuel with
  | zero => intro fs dirs out _; cases dirs <;> exact failsM_refl _
  | succ fuel ih =>
    intro fs dirs out h
    cases dirs with
    | nil => exact failsM_refl _
    | cons dir ds =>
      unfold imgTreeLoop
      rw [pm_bind_assoc]
      intro s
      show PM.bind _ _ s = PM.bind _ _ s ∨ ∃ e, (PM.bind _ _ s).1 = .err e
      unfold PM.bind lift
      rcases fails_imgReadDir fs h wf dir with e | ⟨e, he⟩
      · simp only
        rw [e]
        cases hr : ImgFs.readDir wf fs dir with
        | ok x =>
          obtain ⟨l, fs'⟩ := x
          have hd : fs'.dev = fs.dev := by
            unfold ImgFs.readDir at hr
            split at hr
            · obtain ⟨y, _, h2⟩ := Res.bind_eq_ok.1 hr
              cases h2; rfl
            · obtain ⟨y, _, h2⟩ := Res.bind_eq_ok.1 hr
              cases y with
              | none => cases h2
              | some z => cases h2; rfl
          have := failsM_bind (failsM_refl (report (.discoveredDirectory l.length) : PM σ Unit))
            (fun _ => ih fs' ((subdirPaths dir l).reverse ++ ds) ((dir, l) :: out) (hd ▸ h)) s
          rw [← pm_bind_assoc] at this
          exact this
        | err e => exact .inl rfl
        | panic => exact .inl rfl
        | hang => exact .inl rfl
      · simp only [he]
        exact .inr ⟨e, rfl⟩

theorem sourceFails_img {c' c : Copier} (h : CopierFails c' c) (fs : ImgFs) (d : Dev) (rd : Path → Res (List FileEntry)) :
    SourceFails (ImgFs.source rd c' { fs with dev := d }) (ImgFs.source rd c fs) :=
  ⟨fun _ => soe_refl _, rfl, fun p off size => fails_imgCopy h fs d p off size⟩

theorem failsM_repackImage {c' c : Copier} (hc : CopierFails c' c) (faults : Faults) (wf fuel : Nat) (fs : ImgFs) {d : Dev}
    (h : FailsMore d fs.dev) :
    FailsM (repackImage c' faults wf fuel { fs with dev := d }) (repackImage c faults wf fuel fs) := by
  unfold repackImage
  have hb : (imgTreeLoop (σ := ImgFile) wf fuel fs [[]] [] >>= fun x =>
      createFrom (fileEnv (x.2.source (fun _ => .err .other) c) faults) x.1) =
      ((imgTreeLoop (σ := ImgFile) wf fuel fs [[]] [] >>= fun x => pure (overDevice d x)) >>= fun x =>
        createFrom (fileEnv (x.2.source (fun _ => .err .other) c) faults) x.1) := by
    rw [pm_bind_assoc]; rfl
  show FailsM (_ >>= fun x : List (Path × List FileEntry) × ImgFs => createFrom (fileEnv (x.2.source (fun _ => .err .other) c') faults) x.1)
    (_ >>= fun x : List (Path × List FileEntry) × ImgFs => createFrom (fileEnv (x.2.source (fun _ => .err .other) c) faults) x.1)
  rw [hb]
  refine failsM_bind (failsM_imgTreeLoop d wf fuel fs [[]] [] h) fun x => ?_
  exact failsM_createFrom (envFails_file (sourceFails_img hc x.2 x.2.dev _) faults) _

theorem failsM_repackLinear {c' c : Copier} (wf fuel : Nat) (fs : ImgFs) {d : Dev} (h : FailsMore d fs.dev) :
    FailsM (repackLinear c' wf fuel { fs with dev := d })
      (repackLinear c wf fuel fs >>= fun x => pure { x with dev := d }) := by
  unfold repackLinear
  have hb : ((imgTreeLoop (σ := SecMap) wf fuel fs [[]] [] >>= fun x => do
      createFrom (linearEnv (fun _ => .err .other) pathAsString) x.1
      pure x.2) >>= fun x => pure { x with dev := d }) =
      ((imgTreeLoop (σ := SecMap) wf fuel fs [[]] [] >>= fun x => pure (overDevice d x)) >>= fun x => do
        createFrom (linearEnv (fun _ => .err .other) pathAsString) x.1
        pure x.2) := by
    rw [pm_bind_assoc, pm_bind_assoc]
    congr 1
    funext x
    rw [pm_bind_assoc]
    rfl
  show FailsM (_ >>= fun x : List (Path × List FileEntry) × ImgFs => do
      createFrom (linearEnv (fun _ => .err .other) pathAsString) x.1
      pure x.2) ((_ >>= fun x : List (Path × List FileEntry) × ImgFs => do
      createFrom (linearEnv (fun _ => .err .other) pathAsString) x.1
      pure x.2) >>= fun x : ImgFs => pure { x with dev := d })
  rw [hb]
  exact failsM_bind (failsM_imgTreeLoop d wf fuel fs [[]] [] h) fun x => failsM_refl _

/-! ## Compressing -/

theorem memWriteChunks_returns : ∀ (cs : List Bytes) (off : Nat) (dest : Bytes),
    (∃ d, memWriteChunks off cs dest = .ok d) ∨ ∃ e, memWriteChunks off cs dest = .err e := by
  intro cs
  induction cs with
  | nil => intro off dest; exact .inl ⟨_, rfl⟩
  | cons c cs ih =>
    intro off dest
    unfold memWriteChunks memWrite
    split
    · exact .inr ⟨_, rfl⟩
    · exact ih _ _

theorem fails_imgBufCopy {c' c : Copier} (hc : CopierFails c' c) (fs : ImgFs) (d : Dev) (p : Path) (dest : Bytes)
    (i o n : Nat) : SameOrError (imgBufCopy c' { fs with dev := d } p dest i o n) (imgBufCopy c fs p dest i o n) := by
  unfold imgBufCopy
  rcases fails_imgCopy hc fs d p i n with e | ⟨e, he⟩
  · rw [e]; exact soe_refl _
  · right
    rw [he]
    rcases memWriteChunks_returns (ImgFs.copy c' { fs with dev := d } p i n).1 o dest with ⟨x, hx⟩ | ⟨e', hx⟩
    · rw [hx]; exact ⟨e, rfl⟩
    · rw [hx]; exact ⟨e', rfl⟩

theorem fails_readSector {c' c : BufCopier} (hc : ∀ p dest i o n, SameOrError (c' p dest i o n) (c p dest i o n)) (m : SecMap)
    (k n : Nat) : SameOrError (readSector c' m k n) (readSector c m k n) := by
  unfold readSector
  split
  · exact soe_refl _
  · exact soe_refl _
  · exact soe_bind (hc _ _ _ _ _) fun _ _ => soe_refl _

theorem fails_encodeLoop (h : Host) (c : Ciso) (image : Str) {copy' copy : HostFs → BufCopier}
    (hc : ∀ fs p dest i o n, SameOrError (copy' fs p dest i o n) (copy fs p dest i o n)) (m : SecMap) :
    ∀ (n : Nat) (secs : List Bytes) (fs : HostFs), encodeLoop h c image copy' m n secs fs = encodeLoop h c image copy m n secs fs ∨
      ∃ e, (encodeLoop h c image copy' m n secs fs).1 = .err e := by
  intro n
  induction n with
  | zero => intro secs fs; exact .inl rfl
  | succ n ih =>
    intro secs fs
    unfold encodeLoop
    cases writeParts h c image 0 (c.partial_ (secs.length + n + 1) secs) fs with
    | mk r fs' =>
      cases r with
      | ok u =>
        simp only
        rcases fails_readSector (hc fs') m secs.length 2048 with e | ⟨e, he⟩
        · rw [e]
          cases readSector (copy fs') m secs.length 2048 with
          | ok sec => exact ih _ _
          | err e => exact .inl rfl
          | panic => exact .inl rfl
          | hang => exact .inl rfl
        · rw [he]; exact .inr ⟨e, rfl⟩
      | err e => exact .inl rfl
      | panic => exact .inl rfl
      | hang => exact .inl rfl

/-! ## Unpacking -/

theorem fails_writeFile (h : Host) (path : Str) (fs : HostFs) {d' d : Res Bytes} (hd : SameOrError d' d) :
    h.writeFile path d' fs = h.writeFile path d fs ∨ ∃ e, (h.writeFile path d' fs).1 = .err e := by
  rcases hd with rfl | ⟨e, rfl⟩
  · exact .inl rfl
  · unfold Host.writeFile
    cases h.resolve fs path with
    | ok p =>
      simp only
      split
      · exact .inr ⟨_, rfl⟩
      · cases h.faults p with
        | none => exact .inr ⟨_, rfl⟩
        | refuse => exact .inr ⟨_, rfl⟩
        | cut k => exact .inr ⟨_, rfl⟩
    | err e => exact .inl rfl
    | panic => exact .inl rfl
    | hang => exact .inl rfl

section
variable {r' r : RawImage} (hdev : FailsMore r'.dev r.dev) (h1 : r'.clones = false) (h2 : r.clones = false)
include hdev h1 h2

theorem fails_extract (d : DiskData) : SameOrError (r'.extract d) (r.extract d) := by
  unfold RawImage.extract
  rw [h1, h2]
  split
  · exact soe_refl _
  · exact soe_bind (soe_refl _) fun _ _ => fails_readDataAll hdev d

theorem fails_copyoutEntry (h : Host) (dest : Str) (x : Str × DirEnt) (fs : HostFs) :
    copyoutEntry h r' dest x fs = copyoutEntry h r dest x fs ∨ ∃ e, (copyoutEntry h r' dest x fs).1 = .err e := by
  unfold copyoutEntry
  simp only
  cases h.createDirAll (pathJoin dest (trimSlashes x.1)) fs with
  | mk res fs' =>
    cases res with
    | ok u =>
      simp only
      split
      · exact .inl rfl
      · split
        · exact .inl rfl
        · exact fails_writeFile h _ _ (fails_extract hdev h1 h2 _)
    | err e => exact .inl rfl
    | panic => exact .inl rfl
    | hang => exact .inl rfl

theorem fails_copyoutLoop (h : Host) (dest : Str) : ∀ (l : List (Str × DirEnt)) (fs : HostFs),
    copyoutLoop h r' dest l fs = copyoutLoop h r dest l fs ∨ ∃ e, (copyoutLoop h r' dest l fs).1 = .err e := by
  intro l
  induction l with
  | nil => intro fs; exact .inl rfl
  | cons x xs ih =>
    intro fs
    unfold copyoutLoop
    rcases fails_copyoutEntry hdev h1 h2 h dest x fs with e | ⟨e, he⟩
    · rw [e]
      cases copyoutEntry h r dest x fs with
      | mk res fs' =>
        cases res with
        | ok u => exact ih _
        | err e => exact .inl rfl
        | panic => exact .inl rfl
        | hang => exact .inl rfl
    · cases hc : copyoutEntry h r' dest x fs with
      | mk res fs' =>
        rw [hc] at he
        simp only at he
        subst he
        exact .inr ⟨e, rfl⟩

theorem fails_copyoutDirectory (h : Host) (dest : Str) (tab : Region) (fuel : Nat) (fs : HostFs) :
    copyoutDirectory h r' dest tab fuel fs = copyoutDirectory h r dest tab fuel fs ∨
      ∃ e, (copyoutDirectory h r' dest tab fuel fs).1 = .err e := by
  unfold copyoutDirectory
  rcases fails_fileTree hdev tab fuel with e | ⟨e, he⟩
  · rw [e]
    cases fileTree r.dev tab fuel with
    | ok t => exact fails_copyoutLoop hdev h1 h2 h dest t fs
    | err e => exact .inl rfl
    | panic => exact .inl rfl
    | hang => exact .inl rfl
  · rw [he]; exact .inr ⟨e, rfl⟩

end

end Xdvdfs
