import Verif.Props.Browser
import Verif.Props.Desktop
import Verif.Props.CliUnpack
import Verif.Proof.BrowserUnpack

/-!
# C108, C109: unpacking in the browser
-/

namespace Xdvdfs.Props

open Xdvdfs Spec

variable {b : Browser} {t : Tool} {fs : HostFs} {src dest : HostPath} {img : Bytes} {S : SourceFs} {content : Path → Bytes}

/-! ## C108: what unpacking writes -/

/-- **C108, containment.**  Whatever the image holds, whatever the browser refuses and whichever write fails: everything
that changes is inside the chosen folder, nothing is removed, directories stay directories and files stay files. -/
theorem C108_contained (b : Browser) (t : Tool) (fs : HostFs) (src dest q : HostPath) :
    ((browserUnpack b t fs src dest).host q ≠ fs q → ∃ r, r ≠ [] ∧ q = dest ++ r) ∧
    (fs q = some .dir → (browserUnpack b t fs src dest).host q = some .dir) ∧
    ∀ x, IsFile fs q x → ∃ y, IsFile (browserUnpack b t fs src dest).host q y := by
  obtain ⟨h1, h2⟩ := browserUnpack_within b t fs src dest q
  refine ⟨h1, fun h => ?_, fun x h => ?_⟩
  · rw [h] at h2; exact h2
  · rw [show fs q = some (.file x) from h] at h2; exact h2

/-- The files of a tree that are not empty, and its directories. -/
theorem exists_reported (rd : ReadDir) (content : Path → Bytes) (hu : ∀ {p e e'}, EntryIn rd p e → EntryIn rd p e' → e.name = e'.name → e = e') :
    ∃ R : Path → Bool, ∀ p e, EntryIn rd p e →
      (R (p ++ [e.name]) = true ↔ (e.isDir = true ∨ content (p ++ [e.name]) ≠ [])) := by
  classical
  refine ⟨fun q => decide (∃ p e, EntryIn rd p e ∧ q = p ++ [e.name] ∧ (e.isDir = true ∨ content q ≠ [])), fun p e he => ?_⟩
  rw [decide_eq_true_iff]
  constructor
  · rintro ⟨p', e', he', hq, h⟩
    obtain ⟨rfl, hn⟩ := List.append_inj' hq rfl
    simp only [List.cons.injEq, and_true] at hn
    rw [hu he he' hn]
    rw [hn] at h
    exact h
  · intro h
    exact ⟨p, e, he, rfl, h⟩

theorem packedFrom_unique (hP : PackedFrom img S content) {p : Path} {e e' : FileEntry} (he : EntryIn S.readDir p e)
    (he' : EntryIn S.readDir p e') (hn : e.name = e'.name) : e = e' := by
  obtain ⟨⟨faults, fuel, img0, s', hpack, rfl⟩, hb, hf, _⟩ := hP
  obtain ⟨M, Loc, l0, hP⟩ := pack_packed hb hf hpack
  obtain ⟨h1, l, h2, h3⟩ := he
  obtain ⟨_, l', h2', h3'⟩ := he'
  rw [h2] at h2'; cases h2'
  exact distinct_unique (hP.distinct p l h1 h2) h3 h3' (by rw [hn]; rfl)

theorem webInv_allEntries {fs' : HostFs} {all : List Path} (h : WebInv fs dest S.readDir content all [] fs') :
    AllEntries S.readDir all := by
  have hn := h.nodup
  rw [List.append_nil] at hn
  refine ⟨hn, fun q => ⟨fun hq => h.entry q (by simpa using hq), ?_⟩⟩
  rintro ⟨p, e, he, rfl⟩
  have key : ∀ p, DirOf S.readDir p → p = [] ∨ p ∈ all := by
    intro p hp
    induction hp with
    | root => exact .inl rfl
    | @sub p l e h1 h2 h3 h4 ih =>
      exact .inr (by simpa using h.closed p e ⟨h1, l, h2, h3⟩ ih)
  simpa using h.closed p e he (key p he.1)

/-- **C108, any folder.**  If unpacking an image that was packed succeeds, and the image is not itself at the place of one
of its entries, then every directory and every file that is not empty is in place, an empty file exists, and nothing but
places of entries has changed.  What is missing are the contents of empty files: see `C108_stale_false`. -/
theorem C108_merges_partial (hP : PackedFrom img S content) (hsrc : IsFile fs src img)
    (hself : ∀ p e, EntryIn S.readDir p e → src ≠ dest ++ p ++ [e.name])
    (h : (browserUnpack b t fs src dest).reply = .ok ()) :
    (∀ p e, EntryIn S.readDir p e → if e.isDir = true
      then (browserUnpack b t fs src dest).host (dest ++ p ++ [e.name]) = some .dir
      else ∃ x, IsFile (browserUnpack b t fs src dest).host (dest ++ p ++ [e.name]) x ∧
        (content (p ++ [e.name]) ≠ [] → x = content (p ++ [e.name]))) ∧
    ∀ q, (∀ p e, EntryIn S.readDir p e → q ≠ dest ++ p ++ [e.name]) → (browserUnpack b t fs src dest).host q = fs q := by
  obtain ⟨R, hR⟩ := exists_reported S.readDir content (packedFrom_unique hP)
  obtain ⟨n, hn⟩ := browserUnpack_spec (b := b) hP hsrc hself R hR
  obtain ⟨all, hinv, _⟩ := (hn t).1 h
  have hall := webInv_allEntries hinv
  refine ⟨fun p e he => ?_, fun q hq => ?_⟩
  · have hp := hinv.placed p e he ((hall.2 _).2 ⟨p, e, he, rfl⟩)
    unfold webNode at hp
    split
    · next hd => rw [hp, if_pos hd]
    · next hd =>
      rw [if_neg hd] at hp
      split at hp
      · next hc =>
        split at hp
        · exact ⟨_, hp, fun h => absurd hc h⟩
        · exact ⟨_, hp, fun h => absurd hc h⟩
      · exact ⟨_, hp, fun _ => rfl⟩
  · refine hinv.other q (fun r hr => ?_)
    obtain ⟨p, e, he, rfl⟩ := (hall.2 r).1 hr
    rw [← List.append_assoc]
    exact hq p e he

theorem empty_self (hsrc : IsFile fs src img) (hd : EmptyFolder fs dest) (p : Path) (n : Str) : src ≠ dest ++ p ++ [n] := by
  rintro rfl
  have := hd.2 (p ++ [n]) (by simp)
  rw [← List.append_assoc, show fs (dest ++ p ++ [n]) = _ from hsrc] at this
  cases this

/-- **C108, an empty folder.**  If unpacking an image that was packed into an empty folder succeeds, then the folder holds
the tree of the image, and nothing else has changed. -/
theorem C108_restores (hP : PackedFrom img S content) (hsrc : IsFile fs src img) (hd : EmptyFolder fs dest)
    (h : (browserUnpack b t fs src dest).reply = .ok ()) :
    TreeAt (browserUnpack b t fs src dest).host dest S.readDir content ∧
    ∀ q, ¬ dest <+: q → (browserUnpack b t fs src dest).host q = fs q := by
  have hself : ∀ p e, EntryIn S.readDir p e → src ≠ dest ++ p ++ [e.name] := fun p e _ => empty_self hsrc hd p e.name
  obtain ⟨R, hR⟩ := exists_reported S.readDir content (packedFrom_unique hP)
  obtain ⟨n, hn⟩ := browserUnpack_spec (b := b) hP hsrc hself R hR
  obtain ⟨all, hinv, _⟩ := (hn t).1 h
  have hall := webInv_allEntries hinv
  have hplaced : ∀ p e, EntryIn S.readDir p e → (browserUnpack b t fs src dest).host (dest ++ p ++ [e.name]) =
      some (if e.isDir = true then .dir else .file (content (p ++ [e.name]))) := by
    intro p e he
    rw [hinv.placed p e he ((hall.2 _).2 ⟨p, e, he, rfl⟩), webNode, List.append_assoc, hd.2 _ (by simp)]
    split
    · rfl
    · split
      · next hc => rw [hc]
      · rfl
  refine ⟨⟨fun p e he hdir => ?_, fun p e he hfile => ?_, fun q hq hx => ?_⟩, fun q hq => ?_⟩
  · rw [hplaced p e he, if_pos hdir]
  · rw [hplaced p e he, if_neg (by simp [hfile])]
  · apply Classical.byContradiction
    intro hno
    refine hx ?_
    rw [hinv.other (dest ++ q) ?_, hd.2 q hq]
    intro r hr heq
    obtain ⟨p, e, he, rfl⟩ := (hall.2 r).1 hr
    exact hno ⟨p, e, he, List.append_cancel_left heq⟩
  · refine hinv.other q (fun r _ heq => hq ⟨r, heq.symm⟩)

/-- **C108, success.**  If the browser refuses nothing and no write fails, then an image that was packed is unpacked into
every folder that has room for it. -/
theorem C108_succeeds (hg : Grants b) (hP : PackedFrom img S content) (hsrc : IsFile fs src img)
    (hr : RoomIn fs src dest S.readDir) :
    ∃ n, ∀ t : Tool, n < t.wfuel → n < t.fuel → (browserUnpack b t fs src dest).reply = .ok () := by
  obtain ⟨R, hR⟩ := exists_reported S.readDir content (packedFrom_unique hP)
  obtain ⟨n, hn⟩ := browserUnpack_spec (b := b) hP hsrc (fun p e he => (hr.2 p e he).1) R hR
  refine ⟨n, fun t h1 h2 => (hn t).2 hg ⟨hr.1, fun p e he => webName_host (hP.2.2.2 p e he), fun p e he => ?_⟩ h1 (by omega)⟩
  have := (hr.2 p e he).2
  split at this
  · next hx => exact .inl hx
  · next hx => exact .inr (.inl ⟨hx, this⟩)
  · next x hx => exact .inr (.inr ⟨⟨x, hx⟩, this⟩)

theorem empty_room (hsrc : IsFile fs src img) (hd : EmptyFolder fs dest) (rd : Path → Res (List FileEntry)) :
    RoomIn fs src dest rd := by
  refine ⟨hd.1, fun p e _ => ⟨empty_self hsrc hd p e.name, ?_⟩⟩
  rw [List.append_assoc, hd.2 _ (by simp)]
  trivial

/-! ## C108 is false -/

/-- A host with a folder `/d` in which there is one file, and an image `/i`. -/
def folderWith (n : Str) (old i : Bytes) : HostFs := fun q =>
  if q = [] ∨ q = [['d']] then some .dir else if q = [['d'], n] then some (.file old)
  else if q = [['i']] then some (.file i) else none

/-- C108 is false for a folder that is not empty: a file with nothing in it does not replace a file of its name, which
keeps its contents; the operation reports success. -/
theorem C108_stale_false : ∃ img, PackedFrom img (flatFs [(['o'], [])]) (flatContent [(['o'], [])]) ∧
    ∃ n, ∀ t : Tool, n < t.wfuel → n < t.fuel →
      (browserUnpack (pairBrowser true) t (folderWith ['o'] [7] img) [['i']] [['d']]).reply = .ok () ∧
      IsFile (browserUnpack (pairBrowser true) t (folderWith ['o'] [7] img) [['i']] [['d']]).host [['d'], ['o']] [7] := by
  obtain ⟨s', hpk⟩ := flat_packs o_ok []
  have hP := single_from o_ok (by unfold HostName; decide) hpk
  have hsrc : IsFile (folderWith ['o'] [7] s'.dev.img) [['i']] s'.dev.img := rfl
  have hself : ∀ p e, EntryIn (flatFs [(['o'], [])]).readDir p e → ([['i']] : HostPath) ≠ [['d']] ++ p ++ [e.name] := by
    intro p e he
    obtain ⟨rfl, x, hx, rfl⟩ := (flat_entries p e).1 he
    simp
  obtain ⟨n, hn⟩ := C108_succeeds (fs := folderWith ['o'] [7] s'.dev.img) (src := [['i']]) (dest := [['d']]) (pairBrowser_grants true) hP hsrc (by
    refine ⟨rfl, fun p e he => ⟨hself p e he, ?_⟩⟩
    obtain ⟨rfl, x, hx, rfl⟩ := (flat_entries p e).1 he
    rw [List.mem_singleton.1 hx]
    rfl)
  obtain ⟨R, hR⟩ := exists_reported _ _ (packedFrom_unique hP)
  obtain ⟨_, hn'⟩ := browserUnpack_spec (b := pairBrowser true) hP hsrc hself R hR
  refine ⟨_, hP, n, fun t h1 h2 => ⟨hn t h1 h2, ?_⟩⟩
  obtain ⟨all, hinv, _⟩ := (hn' t).1 (hn t h1 h2)
  have he : EntryIn (flatFs [(['o'], [])]).readDir [] ⟨['o'], false, 0⟩ :=
    (flat_entries _ _).2 ⟨rfl, _, List.mem_singleton.2 rfl, rfl⟩
  exact hinv.placed [] ⟨['o'], false, 0⟩ he (((webInv_allEntries hinv).2 _).2 ⟨[], _, he, rfl⟩)

/-- Unpacking an image that holds one file, which is not empty. -/
theorem browserUnpack_one {vol : VolDesc} {d : DirEnt} {fs1 : HostFs} {x : Bytes} (hg : Grants b) (hsrc : IsFile fs src img)
    (hb : offsetNew (fileDev img) = .ok 0) (hv : readVolume (offsetDev (fileDev img) 0) = .ok vol)
    (hw : walkDirentTree (offsetDev (fileDev img) 0) vol.root t.wfuel = .ok [d]) (hfu : 0 < t.fuel)
    (hfile : d.node.dirent.isDirectory = false) (h0 : d.node.dirent.data.size ≠ 0)
    (hc : webCreateFile b fs dest d.nameStr = .ok fs1) (hsl : webSlice fs1 src img 0 d.node.dirent = .ok x) :
    (browserUnpack b t fs src dest).reply = .ok () ∧
    IsFile (browserUnpack b t fs src dest).host (dest ++ [d.nameStr]) x := by
  have hget : getFile b fs src = some img := by
    unfold getFile
    rw [(hg.1 src).2.1, show fs src = _ from hsrc]
    rfl
  have hfile1 : ∃ y, fs1 (dest ++ [d.nameStr]) = some (.file y) := by
    rcases webCreateFile_ok hc with ⟨⟨old, ho⟩, rfl⟩ | ⟨_, rfl⟩
    · exact ⟨old, ho⟩
    · exact ⟨[], set_same _ _ _⟩
  obtain ⟨y, hy⟩ := hfile1
  have hww : webWriteWhole b fs1 0 (dest ++ [d.nameStr]) x = .ok (fs1.set (dest ++ [d.nameStr]) (.file x)) := by
    unfold webWriteWhole canWrite
    rw [hy, (hg.1 _).2.2.2.1, (hg.1 _).2.2.2.2, hg.2]
    simp [streamWrite]
  have ht : d.node.dirent.direntTable = none := by simp [DiskData.direntTable, hfile]
  have hf : webUnpackFile b src img 0 0 dest d fs = (.ok true, fs1.set (dest ++ [d.nameStr]) (.file x)) := by
    unfold webUnpackFile
    rw [hc]
    simp only
    rw [if_neg h0, hsl]
    simp only
    rw [hww]
  obtain ⟨f, hf'⟩ : ∃ f, t.fuel = f + 1 := ⟨t.fuel - 1, by omega⟩
  have hloop : webUnpackLoop b src img 0 t.wfuel t.fuel [(dest, d)] 1 0 fs =
      (.ok (), [.fileAdded d.nameStr d.node.dirent.data.size.toNat], fs1.set (dest ++ [d.nameStr]) (.file x)) := by
    rw [hf', webUnpackLoop]
    simp only [ht, hf]
    cases f <;> rfl
  have hrun : browserUnpack b t fs src dest = ⟨.ok (), [.progress (.fileCount 1),
      .progress (.fileAdded d.nameStr d.node.dirent.data.size.toNat)], fs1.set (dest ++ [d.nameStr]) (.file x)⟩ := by
    unfold browserUnpack
    rw [hget]
    simp only
    rw [webDev_file hsrc (hg.1 src).2.1, hb]
    simp only
    rw [hv]
    simp only
    rw [hw]
    simp only [List.map_cons, List.map_nil, List.reverse_cons, List.reverse_nil, List.nil_append, List.length_singleton,
      hloop]
  rw [hrun]
  exact ⟨rfl, set_same _ _ _⟩

/-- The folder the image is in. -/
def besideImage (i : Bytes) : HostFs := fun q =>
  if q = [] then some .dir else if q = [['g', '.', 'i', 's', 'o']] then some (.file i) else none

/-- C108 is false for the folder that holds the image: an image `g.iso` with a file `g.iso` in it is replaced by that
file, and the operation reports success. -/
theorem C108_image_lost_false : ∃ img, PackedFrom img (flatFs [(['g', '.', 'i', 's', 'o'], [7])])
      (flatContent [(['g', '.', 'i', 's', 'o'], [7])]) ∧
    ∀ t : Tool, 2 < t.wfuel → 2 < t.fuel →
      (browserUnpack (pairBrowser true) t (besideImage img) [['g', '.', 'i', 's', 'o']] []).reply = .ok () ∧
      IsFile (browserUnpack (pairBrowser true) t (besideImage img) [['g', '.', 'i', 's', 'o']] []).host
        [['g', '.', 'i', 's', 'o']] [7] := by
  obtain ⟨s', hpk⟩ := flat_packs ownName_ok []
  have hP := single_from ownName_ok (by unfold HostName; decide) hpk
  refine ⟨_, hP, fun t h1 h2 => ?_⟩
  obtain ⟨M, Loc, l0, hPk⟩ := pack_packed hP.2.1 hP.2.2.1 hpk
  obtain ⟨W, ds, hwalk, hds, hdsall, hdsn⟩ := packed_walkable hPk (N := 1) (by
    intro p l hd hl
    rw [flat_dirs] at hd
    subst hd
    cases hl
    decide)
  have hag := offsetDev_zero (fileDev s'.dev.img)
  have hnames : ∀ d ∈ ds, d.nameStr = ['g', '.', 'i', 's', 'o'] ∧ d.node.dirent.isDirectory = false := by
    intro d hd
    obtain ⟨e, he, hn, hdir⟩ := W.entry (hds d hd)
    obtain ⟨_, x, hx, rfl⟩ := (flat_entries _ e).1 he
    rw [List.mem_singleton.1 hx] at hn hdir
    exact ⟨hn.symm, hdir.symm⟩
  obtain ⟨d, rfl⟩ : ∃ d, ds = [d] := by
    obtain ⟨d, hd, _⟩ := hdsall ⟨['g', '.', 'i', 's', 'o'], false, 1⟩
      ((flat_entries _ _).2 ⟨rfl, _, List.mem_singleton.2 rfl, rfl⟩)
    match ds, hd with
    | [d], _ => exact ⟨d, rfl⟩
    | d1 :: d2 :: _, _ =>
      simp only [List.map_cons, List.nodup_cons, List.mem_cons, not_or] at hdsn
      exact absurd ((hnames d1 (by simp)).1.trans (hnames d2 (by simp)).1.symm) hdsn.1.1
  obtain ⟨hn, hfile⟩ := hnames d (by simp)
  have hdata := W.file (hds d (by simp)) hfile
  rw [hn] at hdata
  have hcont : flatContent [(['g', '.', 'i', 's', 'o'], [7])] ([] ++ [['g', '.', 'i', 's', 'o']]) = [7] := by decide
  rw [hcont] at hdata
  have h0 : d.node.dirent.data.size ≠ 0 := fun h => absurd ((readDataAll_size hdata).2 h) (by decide)
  have key := browserUnpack_one (b := pairBrowser true) (t := t) (fs := besideImage s'.dev.img)
    (src := [['g', '.', 'i', 's', 'o']]) (dest := []) (fs1 := besideImage s'.dev.img) (img := s'.dev.img) (x := [7])
    (pairBrowser_grants true) rfl (offsetNew_zero hPk.volume) (by rw [hag.readVolume, hPk.volume])
    (hwalk t.wfuel (by omega)) (by omega) hfile h0 (by rw [hn]; rfl) (webSlice_ok hdata h0 rfl)
  rw [hn] at key
  exact key

set_option maxRecDepth 20000 in
theorem trunc_walk : walkDirentTree (fileDev truncImage) ⟨33, 2048⟩ 3 = .ok [truncListed] := by
  rw [trunc_dev]; decide +kernel

/-- C108 is false for an image that ends too early: it ends before the data of its only file, which is five bytes long,
but it is unpacked without an error, and the file is empty. -/
theorem C108_truncated_false :
    readVolume (fileDev truncImage) = .ok (VolDesc.new ⟨33, 2048⟩) ∧
    walkDirentTree (fileDev truncImage) ⟨33, 2048⟩ 3 = .ok [truncListed] ∧
    truncListed.node.dirent.data.size = 5 ∧
    (browserUnpack (pairBrowser true) sampleTool (folderWith ['x'] [] truncImage) [['i']] [['d']]).reply = .ok () ∧
    IsFile (browserUnpack (pairBrowser true) sampleTool (folderWith ['x'] [] truncImage) [['i']] [['d']]).host
      [['d'], ['a']] [] := by
  have hag := offsetDev_zero (fileDev truncImage)
  have hw := trunc_walk
  refine ⟨trunc_volume, hw, rfl, ?_⟩
  refine browserUnpack_one (b := pairBrowser true) (t := sampleTool) (fs := folderWith ['x'] [] truncImage) (src := [['i']])
    (dest := [['d']]) (d := truncListed) (fs1 := (folderWith ['x'] [] truncImage).set [['d'], ['a']] (.file []))
    (pairBrowser_grants true) rfl (offsetNew_zero trunc_volume) (by rw [hag.readVolume, trunc_volume]) ?_ (by decide) rfl
    (by decide) ?_ ?_
  · rw [walkDirentTree_agree hag]
    exact hw
  · have hn : truncListed.nameStr = ['a'] := by decide
    rw [hn]
    rfl
  · have ho : truncListed.node.dirent.data.offset 0 = .ok 2048000 := by decide
    unfold webSlice
    rw [ho]
    simp only
    rw [if_pos (by rw [set_other (by decide)]; rfl)]
    unfold slice
    rw [List.drop_eq_nil_of_le (by rw [trunc_length]; decide)]
    rfl

/-! ## What the page shows -/

variable {F D : Type} {text : Err → Str}

/-- What the operation sends is progress only. -/
theorem unpack_sent (b : Browser) (t : Tool) (fs : HostFs) (src dest : HostPath) :
    ∃ log : List Progress, (browserUnpack b t fs src dest).sent = log.map .progress ∧
      (∀ c j, ((log.take j).foldl barStep (c, 0)).2 ≤ ((log.take j).foldl barStep (c, 0)).1 ) ∧
      (log = [] ∨ ∃ n rest, log = .fileCount n :: rest) ∧
      ((browserUnpack b t fs src dest).reply = .ok () → log ≠ []) ∧
      ∀ n c, .fileCount n ∈ log → n ≤ (log.foldl barStep (c, 0)).1 := by
  have none : ∀ r : Res Unit, r ≠ .ok () → ∃ log : List Progress, ([] : List WebMsg) = log.map .progress ∧
      (∀ c j, ((log.take j).foldl barStep (c, 0)).2 ≤ ((log.take j).foldl barStep (c, 0)).1 ) ∧
      (log = [] ∨ ∃ n rest, log = .fileCount n :: rest) ∧ (r = .ok () → log ≠ []) ∧
      ∀ n c, .fileCount n ∈ log → n ≤ (log.foldl barStep (c, 0)).1 :=
    fun r hr => ⟨[], rfl, fun c j => by simp, .inl rfl, fun h => absurd h hr, by simp⟩
  unfold browserUnpack
  cases getFile b fs src with
  | none => exact none _ nofun
  | some img =>
    simp only
    cases offsetNew (webDev b fs src) with
    | ok base =>
      simp only
      cases readVolume (offsetDev (webDev b fs src) base) with
      | ok vol =>
        simp only
        cases walkDirentTree (offsetDev (webDev b fs src) base) vol.root t.wfuel with
        | ok entries =>
          refine ⟨.fileCount entries.length :: _, rfl, fun c j => ?_, .inr ⟨_, _, rfl⟩, fun _ => nofun, fun n c hm => ?_⟩
          · cases j with
            | zero => simp
            | succ j =>
              simp only [List.take_succ_cons, List.foldl_cons, barStep]
              exact webUnpackLoop_sense _ _ _ _ _ _ (by simp) j
          · have h := webUnpackLoop_counts (b := b) (src := src) (img := img) (base := base) (wfuel := t.wfuel) t.fuel
              (entries.map (fun e => (dest, e))).reverse entries.length 0 0 fs
            rcases List.mem_cons.1 hm with hm | hm
            · cases hm; exact h.1
            · exact h.2 n hm
        | err e => exact none _ nofun
        | panic => exact none _ nofun
        | hang => exact none _ nofun
      | err e => exact none _ nofun
      | panic => exact none _ nofun
      | hang => exact none _ nofun
    | err e => exact none _ nofun
    | panic => exact none _ nofun
    | hang => exact none _ nofun

/-- What reports do to the numbers of the page. -/
theorem page_bar : ∀ (log : List Progress) (p : UnpackPage F D) (a c : Nat), p.progress.toNat = a → p.count.toNat = c →
    (∀ n, .fileCount n ∈ log → n < 2 ^ 32) →
    (∀ j, ((log.take j).foldl barStep (c, a)).2 ≤ ((log.take j).foldl barStep (c, a)).1) →
    (log.foldl (fun p r => p.report r) p).progress.toNat = (log.foldl barStep (c, a)).2 ∧
    (log.foldl (fun p r => p.report r) p).count.toNat = (log.foldl barStep (c, a)).1 := by
  intro log
  induction log with
  | nil => intro p a c h1 h2 _ _; exact ⟨h1, h2⟩
  | cons r log ih =>
    intro p a c h1 h2 hn hs
    simp only [List.foldl_cons]
    have hc : p.count.toNat < 2 ^ 32 := p.count.toNat_lt
    have hx := hs 1
    simp only [List.take_succ_cons, List.take_zero, List.foldl_cons, List.foldl_nil] at hx
    refine ih (p.report r) (barStep (c, a) r).2 (barStep (c, a) r).1 ?_ ?_ (fun n h => hn n (by simp [h])) (fun j => ?_)
    · cases r with
      | fileAdded q n =>
        simp only [barStep] at hx
        show (p.progress + 1).toNat = a + 1
        rw [UInt32.toNat_add, h1]
        show (a + 1) % 2 ^ 32 = a + 1
        exact Nat.mod_eq_of_lt (by omega)
      | _ => exact h1
    · cases r with
      | fileCount n =>
        show (UInt32.ofNat n).toNat = n
        rw [UInt32.toNat_ofNat']
        exact Nat.mod_eq_of_lt (hn n (by simp))
      | _ => exact h2
    · have := hs (j + 1)
      simpa using this

/-- The page while the operation runs, and after it. -/
theorem web_unpack_prefix {es : List (UiEvent (UnpackMsg F D) F D)} {s : UiSys (UnpackPage F D) (F × D)}
    (h : Happens unpackDef es (.ok s)) (hj : s.jobs.length = 1) {r : WebRun} {log : List Progress}
    (hr : r.sent = log.map .progress) (k : Nat) :
    ∃ s' j, Happens unpackDef (es ++ (webUnpackEvents text r).take k) (.ok s') ∧
      s'.page.progress = ((log.take j).foldl (fun p r => p.report r) s.page).progress ∧
      s'.page.count = ((log.take j).foldl (fun p r => p.report r) s.page).count ∧
      ((webUnpackEvents (F := F) (D := D) text r).length ≤ k → log.length ≤ j ∧
        (r.reply = .ok () → s'.page.stage = .finished ∧ s'.jobs = []) ∧
        (∀ e, r.reply = .err e → s'.page.stage = .error (text e) ∧ s'.jobs = []) ∧
        (r.reply = .panic ∨ r.reply = .hang → s'.page.stage = s.page.stage ∧ s'.jobs = s.jobs)) := by
  have hjobs : s.jobs ≠ [] := by intro e; rw [e] at hj; cases hj
  have hmid : ∀ l : List Progress, ∀ m ∈ l.map (UnpackMsg.updateProgress (F := F) (D := D)), unpackDef (F := F) (D := D).midMsg m := by
    intro l m hm
    obtain ⟨p, _, rfl⟩ := List.mem_map.1 hm
    rfl
  have hrep : ∀ l : List Progress, Happens unpackDef (es ++ (l.map (UnpackMsg.updateProgress (F := F) (D := D))).map (.report 0))
      (.ok { s with page := l.foldl (fun p r => p.report r) s.page }) := by
    intro l
    have := unpack_reports _ es h hjobs (hmid l)
    rwa [unpackMid_fold] at this
  have hstage : ∀ (l : List Progress) (p : UnpackPage F D), (l.foldl (fun p r => p.report r) p).stage = p.stage := by
    intro l
    induction l with
    | nil => intro p; rfl
    | cons r l ih => intro p; rw [List.foldl_cons, ih]; cases r <;> rfl
  have hev : webUnpackEvents (F := F) (D := D) text r = (log.map (UnpackMsg.updateProgress (F := F) (D := D))).map (.report 0) ++
      ((webEndState text UnpackStage.finished .error r.reply).map (fun s => UiEvent.ends 0 (.changeState s))).toList := by
    simp [webUnpackEvents, hr]
  rw [hev]
  have hlen : s.jobs.eraseIdx 0 = [] := by
    cases hs : s.jobs with
    | nil => rfl
    | cons a l =>
      rw [hs] at hj
      simp only [List.length_cons] at hj
      simp only [List.eraseIdx_cons_zero]
      exact List.eq_nil_of_length_eq_zero (by omega)
  by_cases hk : log.length < k
  · cases hrp : r.reply with
    | ok u =>
      rw [List.take_of_length_le (by simp [webEndState]; omega)]
      have h2 := unpack_ends (hrep log) hjobs (st := .finished) (.inl rfl)
      rw [List.append_assoc] at h2
      refine ⟨_, log.length, h2, by rw [List.take_length], by rw [List.take_length], fun _ => ⟨Nat.le_refl _, fun _ => ⟨rfl, hlen⟩, nofun, by simp⟩⟩
    | err e =>
      rw [List.take_of_length_le (by simp [webEndState]; omega)]
      have h2 := unpack_ends (hrep log) hjobs (st := .error (text e)) (.inr ⟨_, rfl⟩)
      rw [List.append_assoc] at h2
      refine ⟨_, log.length, h2, by rw [List.take_length], by rw [List.take_length], fun _ => ⟨Nat.le_refl _, nofun, ?_, by simp⟩⟩
      intro e' he'
      cases he'
      exact ⟨rfl, hlen⟩
    | panic =>
      rw [List.take_of_length_le (by simp [webEndState]; omega)]
      refine ⟨{ s with page := log.foldl (fun p r => p.report r) s.page }, log.length, by simpa [webEndState] using hrep log, by rw [List.take_length], by rw [List.take_length],
        fun _ => ⟨Nat.le_refl _, nofun, nofun, fun _ => ⟨hstage _ _, rfl⟩⟩⟩
    | hang =>
      rw [List.take_of_length_le (by simp [webEndState]; omega)]
      refine ⟨{ s with page := log.foldl (fun p r => p.report r) s.page }, log.length, by simpa [webEndState] using hrep log, by rw [List.take_length], by rw [List.take_length],
        fun _ => ⟨Nat.le_refl _, nofun, nofun, fun _ => ⟨hstage _ _, rfl⟩⟩⟩
  · rw [List.take_append_of_le_length (by simp; omega), ← List.map_take, ← List.map_take]
    refine ⟨_, k, hrep (log.take k), rfl, rfl, fun hk' => ?_⟩
    cases hrp : r.reply with
    | ok u => rw [hrp] at hk'; simp [webEndState] at hk'; omega
    | err e => rw [hrp] at hk'; simp [webEndState] at hk'; omega
    | panic =>
      rw [hrp] at hk'
      simp [webEndState] at hk'
      exact ⟨by omega, nofun, nofun, fun _ => ⟨hstage _ _, rfl⟩⟩
    | hang =>
      rw [hrp] at hk'
      simp [webEndState] at hk'
      exact ⟨by omega, nofun, nofun, fun _ => ⟨hstage _ _, rfl⟩⟩

/-! ## C109: the bar -/

theorem bar_small : ∀ (l : List Progress) (c a : Nat), 100 * c < 2 ^ 32 → (∀ n, .fileCount n ∈ l → 100 * n < 2 ^ 32) →
    100 * (l.foldl barStep (c, a)).1 < 2 ^ 32 := by
  intro l
  induction l with
  | nil => intro c a h _; exact h
  | cons r l ih =>
    intro c a h hm
    rw [List.foldl_cons]
    refine ih _ _ ?_ (fun n h => hm n (by simp [h]))
    cases r with
    | fileCount n => exact hm n (by simp)
    | _ => exact h

/-- **C109, every image.**  Whatever the image holds and whatever goes wrong, the page shows at every moment not more
things done than there are, and not more than 100 percent, as long as not more than 42949672 entries are counted. -/
theorem C109_sense {es : List (UiEvent (UnpackMsg F D) F D)} {x : Picked F D} {s : UiSys (UnpackPage F D) (F × D)}
    {f : F} {d : D} (h : Happens unpackDef (es ++ [.choose x]) (.ok s)) (hj : s.jobs = [(f, d)])
    (b : Browser) (t : Tool) (fs : HostFs) (src dest : HostPath)
    (hn : ∀ n, .progress (.fileCount n) ∈ (browserUnpack b t fs src dest).sent → 100 * n < 2 ^ 32) (k : Nat) :
    ∃ s' v, Happens unpackDef (es ++ [.choose x] ++ (webUnpackEvents text (browserUnpack b t fs src dest)).take k) (.ok s') ∧
      Shows unpackDef s' v ∧ ShowsSense v := by
  obtain ⟨log, hl, hs, hhead, _⟩ := unpack_sent b t fs src dest
  obtain ⟨s', j, h1, h2, h3, _⟩ := web_unpack_prefix (text := text) h (by rw [hj]; rfl) hl k
  have h0 := unpack_starts h (by rw [hj]; simp)
  have hn' : ∀ n, .fileCount n ∈ log → 100 * n < 2 ^ 32 := fun n hm =>
    hn n (by rw [hl]; exact List.mem_map.2 ⟨_, hm, rfl⟩)
  obtain ⟨g1, g2⟩ := page_bar (log.take j) s.page 0 s.page.count.toNat (by rw [h0]; rfl) rfl
    (fun n hm => by have := hn' n (List.mem_of_mem_take hm); omega)
    (fun i => by rw [List.take_take]; exact hs _ _)
  refine ⟨s', _, h1, rfl, ?_⟩
  show s'.page.progress.toNat ≤ s'.page.count.toNat ∧ (percent s'.page.progress s'.page.count).toNat ≤ 100
  rw [h2, h3]
  have hle := hs s.page.count.toNat j
  refine ⟨by rw [g1, g2]; exact hle, ?_⟩
  have hzero : ∀ p : UnpackPage F D, p.progress = 0 → (percent p.progress p.count).toNat ≤ 100 := by
    intro p hp
    rw [hp, percent_zero]
    omega
  rcases hhead with rfl | ⟨n, rest, rfl⟩
  · rw [List.take_nil]; exact hzero _ h0
  · cases j with
    | zero => exact hzero _ h0
    | succ j =>
      refine percent_le (by rw [g1, g2]; exact hle) ?_
      rw [g2]
      simp only [List.take_succ_cons, List.foldl_cons, barStep]
      exact bar_small _ _ _ (hn' n (by simp)) (fun m hm => hn' m (by simp [List.mem_of_mem_take hm]))

/-- The bar after unpacking an image that was packed: `R` are the entries that are not empty files. -/
theorem unpacked_bar {es : List (UiEvent (UnpackMsg F D) F D)} {x : Picked F D} {s : UiSys (UnpackPage F D) (F × D)}
    {f : F} {d : D} (h : Happens unpackDef (es ++ [.choose x]) (.ok s)) (hj : s.jobs = [(f, d)])
    (hP : PackedFrom img S content) (hsrc : IsFile fs src img)
    (hself : ∀ p e, EntryIn S.readDir p e → src ≠ dest ++ p ++ [e.name])
    (hok : (browserUnpack b t fs src dest).reply = .ok ()) {R : Path → Bool}
    (hR : ∀ p e, EntryIn S.readDir p e → (R (p ++ [e.name]) = true ↔ (e.isDir = true ∨ content (p ++ [e.name]) ≠ []))) :
    ∃ all, AllEntries S.readDir all ∧ (100 * all.length < 2 ^ 32 →
      ∃ s', Happens unpackDef (es ++ [.choose x] ++ webUnpackEvents text (browserUnpack b t fs src dest)) (.ok s') ∧
        s'.page.stage = .finished ∧ s'.page.progress.toNat = all.countP R ∧ s'.page.count.toNat = all.length) := by
  obtain ⟨n, hn⟩ := browserUnpack_spec (b := b) hP hsrc hself R hR
  obtain ⟨all, hinv, sent, hsent, hfold⟩ := (hn t).1 hok
  refine ⟨all, webInv_allEntries hinv, fun hsmall => ?_⟩
  obtain ⟨log, hl, hs, hhead, hnil, hcnt⟩ := unpack_sent b t fs src dest
  have hsl : sent = log := by
    have h1 : sent.map WebMsg.progress = log.map WebMsg.progress := by rw [← hsent, ← hl]
    refine (List.map_inj_right ?_).1 h1
    intro x y hxy
    cases hxy; rfl
  subst hsl
  obtain ⟨s', j, h1, h2, h3, h4⟩ := web_unpack_prefix (text := text) h (by rw [hj]; rfl) hl
    (webUnpackEvents (F := F) (D := D) text (browserUnpack b t fs src dest)).length
  obtain ⟨h5, h6, _⟩ := h4 (Nat.le_refl _)
  rw [List.take_of_length_le (Nat.le_refl _)] at h1
  rw [List.take_of_length_le h5] at h2 h3
  have h0 := unpack_starts h (by rw [hj]; simp)
  have hfold' : sent.foldl barStep (s.page.count.toNat, 0) = (all.length, all.countP R) := by
    rcases hhead with rfl | ⟨m, rest, rfl⟩
    · exact absurd rfl (hnil hok)
    · rw [← hfold]
      rfl
  obtain ⟨g1, g2⟩ := page_bar sent s.page 0 s.page.count.toNat (by rw [h0]; rfl) rfl
    (fun m hm => by
      have := hcnt m s.page.count.toNat hm
      rw [hfold'] at this
      simp only at this
      omega)
    (fun i => hs _ i)
  rw [hfold'] at g1 g2
  exact ⟨s', h1, (h6 hok).1, by rw [h2]; exact g1, by rw [h3]; exact g2⟩

/-- **C109, success.**  When an image that was packed, with no empty file in it, has been unpacked, the page shows that
all its entries are done.  Missing: empty files, see `C109_empty_files_false`, and more than 42949672 entries. -/
theorem C109_full_partial {es : List (UiEvent (UnpackMsg F D) F D)} {x : Picked F D} {s : UiSys (UnpackPage F D) (F × D)}
    {f : F} {d : D} (h : Happens unpackDef (es ++ [.choose x]) (.ok s)) (hj : s.jobs = [(f, d)])
    (hP : PackedFrom img S content) (hsrc : IsFile fs src img)
    (hself : ∀ p e, EntryIn S.readDir p e → src ≠ dest ++ p ++ [e.name]) (hne : ¬ HasEmptyFile S.readDir content)
    (hok : (browserUnpack b t fs src dest).reply = .ok ()) :
    ∃ all, AllEntries S.readDir all ∧ (100 * all.length < 2 ^ 32 →
      ∃ s' v, Happens unpackDef (es ++ [.choose x] ++ webUnpackEvents text (browserUnpack b t fs src dest)) (.ok s') ∧
        Shows unpackDef s' v ∧ s'.page.stage = .finished ∧ ShowsAll v all.length) := by
  obtain ⟨R, hR⟩ := exists_reported S.readDir content (packedFrom_unique hP)
  obtain ⟨all, h1, h2⟩ := unpacked_bar (text := text) h hj hP hsrc hself hok hR
  refine ⟨all, h1, fun hsmall => ?_⟩
  obtain ⟨s', k1, k2, k3, k4⟩ := h2 hsmall
  have hc : all.countP R = all.length := by
    rw [List.countP_eq_length]
    intro q hq
    obtain ⟨p, e, he, rfl⟩ := (h1.2 q).1 hq
    rw [hR p e he]
    cases hd : e.isDir with
    | true => exact .inl rfl
    | false => exact .inr (fun hc => hne ⟨p, e, he, hd, hc⟩)
  rw [hc] at k3
  refine ⟨s', _, k1, rfl, k2, k3, k4, ?_, ?_⟩
  · show (percent s'.page.progress s'.page.count).toNat = _
    rw [show s'.page.progress = s'.page.count from UInt32.toNat_inj.1 (by omega)]
    split
    · next h0 =>
      rw [show s'.page.count = 0 from UInt32.toNat_inj.1 (by rw [k4, h0]; rfl)]
      exact percent_zero
    · next h0 =>
      refine percent_full ?_ (by omega)
      intro e
      rw [e] at k4
      exact h0 k4.symm
  · show s'.page.stage.errorText = none
    rw [k2]
    rfl

/-- **C109 is false for empty files.**  When an image with an empty file in it has been unpacked, the page shows that it
has finished, but that fewer entries are done than there are. -/
theorem C109_empty_files_false {es : List (UiEvent (UnpackMsg F D) F D)} {x : Picked F D} {s : UiSys (UnpackPage F D) (F × D)}
    {f : F} {d : D} (h : Happens unpackDef (es ++ [.choose x]) (.ok s)) (hj : s.jobs = [(f, d)])
    (hP : PackedFrom img S content) (hsrc : IsFile fs src img)
    (hself : ∀ p e, EntryIn S.readDir p e → src ≠ dest ++ p ++ [e.name]) (hne : HasEmptyFile S.readDir content)
    (hok : (browserUnpack b t fs src dest).reply = .ok ()) :
    ∃ all, AllEntries S.readDir all ∧ (100 * all.length < 2 ^ 32 →
      ∃ s' v, Happens unpackDef (es ++ [.choose x] ++ webUnpackEvents text (browserUnpack b t fs src dest)) (.ok s') ∧
        Shows unpackDef s' v ∧ s'.page.stage = .finished ∧ v.error = none ∧ v.total.toNat = all.length ∧
        v.done.toNat < all.length ∧ v.percent.toNat < 100) := by
  obtain ⟨R, hR⟩ := exists_reported S.readDir content (packedFrom_unique hP)
  obtain ⟨all, h1, h2⟩ := unpacked_bar (text := text) h hj hP hsrc hself hok hR
  refine ⟨all, h1, fun hsmall => ?_⟩
  obtain ⟨s', k1, k2, k3, k4⟩ := h2 hsmall
  obtain ⟨p, e, he, hd, hce⟩ := hne
  have hc : all.countP R < all.length := by
    refine Nat.lt_of_le_of_ne List.countP_le_length ?_
    intro hx
    rw [List.countP_eq_length] at hx
    rcases (hR p e he).1 (hx _ ((h1.2 _).2 ⟨p, e, he, rfl⟩)) with h | h
    · rw [hd] at h; cases h
    · exact h hce
  refine ⟨s', _, k1, rfl, k2, ?_, k4, by rw [← k3] at hc; exact hc, ?_⟩
  · show s'.page.stage.errorText = none
    rw [k2]
    rfl
  · show (percent s'.page.progress s'.page.count).toNat < 100
    have hpos : s'.page.count ≠ 0 := by
      intro e0
      rw [e0] at k4
      have : (0 : UInt32).toNat = 0 := rfl
      omega
    unfold percent
    rw [if_pos hpos, UInt32.toNat_div, UInt32.toNat_mul, k3, k4]
    show (100 * all.countP R) % 2 ^ 32 / all.length < 100
    rw [Nat.mod_eq_of_lt (by omega)]
    exact (Nat.div_lt_iff_lt_mul (by omega)).2 (by omega)

/-! ## The hypotheses can be met -/

/-- A host with an empty folder `/d` and an image `/i`. -/
def emptyFolderHost (i : Bytes) : HostFs := fun q =>
  if q = [] ∨ q = [['d']] then some .dir else if q = [['i']] then some (.file i) else none

theorem emptyFolderHost_empty (i : Bytes) : EmptyFolder (emptyFolderHost i) [['d']] := by
  refine ⟨rfl, fun r hr => ?_⟩
  unfold emptyFolderHost
  cases r with
  | nil => exact absurd rfl hr
  | cons a r => simp

theorem sample_from : ∃ img, PackedFrom img sampleFs' sampleContent := by
  obtain ⟨s', h⟩ := sample_packs []
  exact ⟨_, ⟨_, _, _, _, h, rfl⟩, sample'_bounded, sample'_faithful, sample_hostNames⟩

/-- The image of the sample, which holds a directory, a file beside it and a file in it, is unpacked into an empty folder,
from the page: the folder then holds the file in the directory, and the page shows that everything is done.  This is
about `C108_merges_partial`, `C108_restores`, `C108_succeeds`, `C109_sense` and `C109_full_partial`. -/
example : ∃ img n, PackedFrom img sampleFs' sampleContent ∧ ∀ t : Tool, n < t.wfuel → n < t.fuel →
    IsFile (browserUnpack (pairBrowser true) t (emptyFolderHost img) [['i']] [['d']]).host [['d'], ['A'], ['c']]
      (sampleContent [['A'], ['c']]) ∧ sampleContent [['A'], ['c']] ≠ [] ∧
    ∃ all, AllEntries sampleFs'.readDir all ∧ (100 * all.length < 2 ^ 32 →
      ∃ s' v, Happens unpackDef (unpackSession.take 4 ++ webUnpackEvents (fun _ => ['e'])
          (browserUnpack (pairBrowser true) t (emptyFolderHost img) [['i']] [['d']])) (.ok s') ∧
        Shows unpackDef s' v ∧ ShowsAll v all.length) := by
  obtain ⟨img, hP⟩ := sample_from
  have hsrc : IsFile (emptyFolderHost img) [['i']] img := rfl
  have hd := emptyFolderHost_empty img
  obtain ⟨n, hn⟩ := C108_succeeds (pairBrowser_grants true) hP hsrc (empty_room hsrc hd _)
  refine ⟨img, n, hP, fun t h1 h2 => ?_⟩
  have hok := hn t h1 h2
  have hr := (C108_restores hP hsrc hd hok).1
  refine ⟨hr.2.1 [['A']] ⟨['c'], false, 3⟩ ((sample_entries _ _).2 (.inr (.inr ⟨rfl, rfl⟩))) rfl, by decide, ?_⟩
  obtain ⟨all, k1, k2⟩ := C109_full_partial (F := Str) (D := Str) (text := fun _ => ['e']) (es := unpackSession.take 3)
    (x := .dir ['o']) (s := ⟨⟨.unpacking, none, some ['o'], 0, 0, none⟩, none, [(['i'], ['o'])]⟩) rfl rfl hP hsrc
    (fun p e _ => empty_self hsrc hd p e.name) (by
      rintro ⟨p, e, he, h1, h2⟩
      rcases (sample_entries p e).1 he with ⟨rfl, rfl⟩ | ⟨rfl, rfl⟩ | ⟨rfl, rfl⟩
      · cases h1
      · exact absurd h2 (by decide)
      · exact absurd h2 (by decide)) hok
  refine ⟨all, k1, fun hs => ?_⟩
  obtain ⟨s', v, g1, g2, _, g4⟩ := k2 hs
  exact ⟨s', v, g1, g2, g4⟩

/-- The hypotheses of `C109_empty_files_false` hold for an image with one file in it, which is empty. -/
example : ∃ img n, PackedFrom img (flatFs [(['o'], [])]) (flatContent [(['o'], [])]) ∧
    HasEmptyFile (flatFs [(['o'], [])]).readDir (flatContent [(['o'], [])]) ∧
    ∀ t : Tool, n < t.wfuel → n < t.fuel →
      (browserUnpack (pairBrowser true) t (emptyFolderHost img) [['i']] [['d']]).reply = .ok () := by
  obtain ⟨s', hpk⟩ := flat_packs o_ok []
  have hP := single_from o_ok (by unfold HostName; decide) hpk
  have hsrc : IsFile (emptyFolderHost s'.dev.img) [['i']] s'.dev.img := rfl
  have hd := emptyFolderHost_empty s'.dev.img
  obtain ⟨n, hn⟩ := C108_succeeds (pairBrowser_grants true) hP hsrc (empty_room hsrc hd _)
  exact ⟨_, n, hP, ⟨[], ⟨['o'], false, 0⟩, (flat_entries _ _).2 ⟨rfl, _, List.mem_singleton.2 rfl, rfl⟩, rfl, rfl⟩, hn⟩

end Xdvdfs.Props
