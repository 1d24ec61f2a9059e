import Verif.Proof.BrowserTool
import Verif.Props.CompressArgs

/-!
# C105 to C107: packing in the browser
-/

namespace Xdvdfs.Props

open Xdvdfs Xdvdfs.Spec

variable {b b' : Browser} {t : Tool} {fs : HostFs} {p dest : HostPath}

theorem listsAll_reads (hl : ListsAll b fs) : ReadsHost (nameOrder b) fs :=
  ⟨fun d => ⟨sorted_nodup (sortNames_sorted _), fun n => by
    simp only [nameOrder, Bool.false_eq_true, or_false]
    rw [sortNames_mem]
    exact hl d n⟩, fun x => by simp [nameOrder], nofun⟩

theorem nameOrder_eq (hl : ListsAll b fs) {names : HostPath → List Str} (ho : InOrder fs names) :
    nameOrder b = listedAs names := by
  unfold nameOrder listedAs
  congr 1
  funext d
  exact sorted_unique (sortNames_sorted _) (ho d).1 (fun n => by rw [sortNames_mem, hl d n, (ho d).2 n])

/-! ## C105: the image -/

/-- What a pack of the folder gives is an image of the folder. -/
theorem web_imageOf (hl : ListsAll b fs) (hw : WellFormedHost fs) (hn : ProperNames fs) {n : Nat} {tree : WebTree}
    (h1 : populate b fs n p = .ok tree) {m : Nat} {img0 : Bytes} {s2 : PackState ImgFile}
    (g1 : createImage (fileEnv (webFs b fs p tree) (fun _ => none)) m ⟨⟨img0, []⟩, []⟩ = (.ok (), s2)) :
    ImageOf s2.dev.img fs p := by
  have hb := web_bounded (b := b) (fs := fs) (root := p) (t := tree)
  have hf := web_faithful h1
  obtain ⟨M, Loc, l0, hP⟩ := pack_packed hb hf g1
  have hL : ∀ q, DirOf (webFs b fs p tree).readDir q → ∃ l, (webFs b fs p tree).readDir q = .ok l ∧
      (stdFs (nameOrder b) fs p).readDir q = .ok l := by
    intro q hq
    obtain ⟨l, hl'⟩ := hP.listable q hq
    exact ⟨l, hl', web_readDir_ok h1 hl'⟩
  have hLs : Listable (stdFs (nameOrder b) fs p).readDir := by
    intro q hq
    obtain ⟨l, _, k⟩ := hL q (dirOf_back hL hq)
    exact ⟨l, k⟩
  intro h' host dest' clones hh hfresh
  have hnames : ∀ q e, EntryIn (webFs b fs p tree).readDir q e → HostName e.name := by
    intro q e he
    refine hn (p ++ q) e.name ?_
    rw [List.append_assoc]
    rcases std_entry_host (web_entry_std h1 he) with ⟨_, h⟩ | ⟨_, d, h, _⟩ <;> rw [h] <;> nofun
  obtain ⟨n, st', k1, k2, k3⟩ := C45_unpack_restores hb hf g1 hnames h' hh dest' host hfresh clones
  refine ⟨n, st', k1, treeAt_same (listsAll_reads hl) hw hLs ?_, k3⟩
  refine ⟨fun q e he => k2.1 q e (entryIn_back hL he), fun q e he => k2.2.1 q e (entryIn_back hL he), fun q hq hx => ?_⟩
  obtain ⟨q', e, he, hqe⟩ := k2.2.2 q hq hx
  exact ⟨q', e, web_entry_std h1 he, hqe⟩

/-- **C105, folders.**  If the browser lists folders completely and packing a folder succeeds, then the output file is an
image of the folder as it was, of a whole number of 64 KiB, and nothing else has changed.  The output file may be in the
folder itself. -/
theorem C105_folder (hl : ListsAll b fs) (hw : WellFormedHost fs) (hn : ProperNames fs) (hdir : fs p = some .dir)
    (h : (browserPack b t fs (.folder p) dest).reply = .ok ()) :
    ∃ img, IsFile (browserPack b t fs (.folder p) dest).host dest img ∧ ImageOf img fs p ∧ img.length % 65536 = 0 ∧
      ∀ q, q ≠ dest → (browserPack b t fs (.folder p) dest).host q = fs q := by
  obtain ⟨tree, s, h1, h2, h3, _⟩ := browserPack_folder h
  rw [h3]
  obtain ⟨s2, g1, g2, _, g3⟩ := web_as_file h2
  exact ⟨s.dev.buf, set_same _ _ _, g2 ▸ web_imageOf hl hw hn h1 g1, g3, fun q hq => set_other hq⟩

/-- An image that cannot be read is not opened. -/
theorem web_unreadable (hx : b.noRead p = true) (base : Nat) : offsetNew (webDev b fs p) ≠ .ok base := by
  have hd : webDev b fs p = ⟨fun _ _ => .err .io, by intro _ _ _ h; cases h⟩ := by
    unfold webDev getFile
    rw [hx]
    rfl
  have ho : ∀ base, offsetNew (webDev b fs p) ≠ .ok base := by
    have hv : ∀ o v, readVolume (offsetDev (webDev b fs p) o) ≠ .ok v := by
      rw [hd]
      intro o v
      unfold readVolume offsetDev offsetRead
      simp only
      by_cases hb : sectorSize * 32 + o < 2 ^ 64
      · simp only [if_pos hb]; nofun
      · simp only [if_neg hb]; nofun
    have hl : ∀ os base, offsetNewLoop (webDev b fs p) os ≠ .ok base := by
      intro os base
      induction os with
      | nil => nofun
      | cons o os ih =>
        rw [offsetNewLoop]
        cases hx : readVolume (offsetDev (webDev b fs p) o) with
        | ok v => exact absurd hx (hv o v)
        | err e => exact ih
        | panic => nofun
        | hang => nofun
    exact hl _
  exact ho base

/-- **C105, images.**  If packing an image succeeds, the output file is an image with the same tree, of a whole number
of 64 KiB, and nothing else has changed.  The output file may be the image itself. -/
theorem C105_image {img : Bytes} (hp : IsFile fs p img) (h64 : img.length < 2 ^ 64)
    {tree : Path → Res (List FileEntry)} {content : Path → Bytes} (hold : ImageHolds img t.wfuel tree content)
    (h : (browserPack b t fs (.image p) dest).reply = .ok ()) :
    ∃ out, IsFile (browserPack b t fs (.image p) dest).host dest out ∧ HoldsTree (fileDev out) tree content ∧
      out.length % 65536 = 0 ∧ ∀ q, q ≠ dest → (browserPack b t fs (.image p) dest).host q = fs q := by
  have hr : b.noRead p = false := by
    cases hx : b.noRead p with
    | false => rfl
    | true =>
      unfold browserPack at h
      simp only at h
      cases hb : offsetNew (webDev b fs p) with
      | ok base => exact absurd hb (web_unreadable hx base)
      | err e => rw [hb] at h; cases h
      | panic => rw [hb] at h; cases h
      | hang => rw [hb] at h; cases h
  obtain ⟨base, vol, h1, h2, rfl, h4⟩ := hold
  rw [browserPack_image hp hr h1 h2] at h ⊢
  obtain ⟨s, g1, g2, _⟩ := webPackImpl_ok h
  rw [g2]
  rcases repackWeb_cases rfl g1 with ⟨fs', k1, k2, k3⟩ | ⟨k1, _⟩
  · obtain ⟨s2, g3, g4, _, g5⟩ := web_as_file k3
    have hcop := defaultCopier_copies (offsetDev_parts h64 base)
    have hrd : (pureSource t.wfuel (defaultCopier (offsetDev (fileDev img) base)) fs').readDir =
        imgReadDir (offsetDev (fileDev img) base) t.wfuel vol.root := by
      simp only [pureSource]; rw [k1.dev, k1.vol]
    obtain ⟨D, M, rootW, rootSize, next, recs, n', hS⟩ := shape_of_success g3
    have hdist := PlanShape.allDistinct
      (fs := pureSource t.wfuel (defaultCopier (offsetDev (fileDev img) base)) fs') hS
    have := pack_success (pureSource_bounded hcop)
      (pureSource_faithful k1 k2 (by rw [← hrd]; exact hdist) hcop h4) g3
    rw [hrd, g4] at this
    exact ⟨s.dev.buf, set_same _ _ _, this, g5, fun q hq => set_other hq⟩
  · exact absurd rfl (k1 ())

/-- **C105, compared with the tool.**  If nothing is refused and no write fails, then a folder that the tool packs on a
host that lists directories in the order of their names is packed in the browser, too, and the images are the same, but
for zeros that may follow. -/
theorem C105_like_tool (hl : ListsAll b fs) (hg : Grants b) {names : HostPath → List Str} (ho : InOrder fs names)
    (hdir : fs p = some .dir) (hd : Depth fs p t.fuel) {old : Bytes} (hdest : IsFile fs dest old) {img : Bytes}
    (hp : HostPacksTo t (listedAs names) fs p img) :
    (browserPack b t fs (.folder p) dest).reply = .ok () ∧
    ∃ k, IsFile (browserPack b t fs (.folder p) dest).host dest (img ++ List.replicate k 0) := by
  obtain ⟨s, h1, rfl⟩ := hp
  rw [← nameOrder_eq hl ho] at h1
  obtain ⟨tree, ht⟩ := populate_total (b := b) (fs := fs) (root := p) (fun q _ => (hg.1 _).1)
    (fun d n hm => (hl d n).1 hm) t.fuel (p := []) (by simp [hdir]) (fun q hq => hd q (by simpa using hq))
  rw [List.append_nil] at ht
  obtain ⟨s1, h2, h3⟩ := web_tool_pack ht hdir (fun q d _ => (hg.1 _).2.1) h1
  obtain ⟨s2, h4⟩ := web_create_works hg.2 h2
  have hw : canWrite b fs dest = true := by
    unfold canWrite
    rw [(hg.1 dest).2.2.2.1, hdest]
    rfl
  have hrun : browserPack b t fs (.folder p) dest =
      ⟨.ok (), .stage .packingImage :: s2.log.map .progress ++ [.stage .waitingForFlush],
        fs.set dest (.file s2.dev.buf)⟩ := by
    unfold browserPack webFsNew
    simp only [ht]
    unfold webPackImpl
    rw [if_pos hw, h4]
    simp only [(hg.1 dest).2.2.2.2, Bool.false_eq_true, if_false]
  rw [hrun]
  obtain ⟨k, hk⟩ := web_tool_image h4 h2
  rw [h3] at hk
  exact ⟨rfl, k, by show HostFs.set _ _ _ _ = _; rw [set_same, hk]⟩

/-- **C105, images: success.**  If nothing is refused and no write fails, an image of a representable tree with names
made of characters below `U+0100` is packed in the browser, and so is the image itself.  Missing: other names, see
`C105_wide_name_false`. -/
theorem C105_image_succeeds_partial (hg : Grants b) {img old : Bytes} (hp : IsFile fs p img) (hdest : IsFile fs dest old)
    (h64 : img.length < 2 ^ 64) {tree : Path → Res (List FileEntry)} {content : Path → Bytes}
    (hold : ImageHolds img t.wfuel tree content) {all : List (Path × List FileEntry)} (hL : Listable tree)
    (ht : TreeOf tree all) (hF : Fits all) (hS : ∀ x ∈ all, StorableListing x.2) (hK : ∀ x ∈ all, TableWithin256K x.2)
    (hlat : ∀ x ∈ all, ∀ e ∈ x.2, Latin1 e.name) (hfu : all.length ≤ t.fuel) :
    (browserPack b t fs (.image p) dest).reply = .ok () := by
  obtain ⟨base, vol, h1, h2, rfl, h4⟩ := hold
  rw [browserPack_image hp (hg.1 p).2.1 h1 h2]
  obtain ⟨s', hs⟩ := repackWeb_works hg.2 (fs := ⟨offsetDev (fileDev img) base, vol, Trie.empty⟩) rfl
    (repack_works rfl (defaultCopier_works (offsetDev_parts h64 base)) h4 hL ht hF hS hK hlat hfu _)
  unfold webPackImpl
  have hw : canWrite b fs dest = true := by
    unfold canWrite
    rw [(hg.1 dest).2.2.2.1, hdest]
    rfl
  rw [if_pos hw, hs]
  simp only [(hg.1 dest).2.2.2.2, Bool.false_eq_true, if_false]

/-! ## C106: all or nothing -/

/-- **C106.**  Unless packing succeeds, nothing changes at all, whatever the browser refuses and whichever write fails:
the output file keeps the content it had.  And packing never changes anything but the output file. -/
theorem C106_all_or_nothing (b : Browser) (t : Tool) (fs : HostFs) (src : WebSource) (dest : HostPath) :
    ((browserPack b t fs src dest).reply ≠ .ok () → (browserPack b t fs src dest).host = fs) ∧
    ∀ q, q ≠ dest → (browserPack b t fs src dest).host q = fs q := by
  have impl : ∀ pack : PM WebFile Unit, ∀ q, q ≠ dest → (webPackImpl b fs dest pack).host q = fs q := by
    intro pack q hq
    by_cases h : (webPackImpl b fs dest pack).reply = .ok ()
    · obtain ⟨s, _, h2, _⟩ := webPackImpl_ok h
      rw [h2]
      exact set_other hq
    · rw [webPackImpl_not_ok h]
  unfold browserPack
  cases src with
  | folder p =>
    simp only
    cases webFsNew b fs t.fuel p with
    | ok tree => exact ⟨webPackImpl_not_ok, impl _⟩
    | err e => exact ⟨fun _ => rfl, fun _ _ => rfl⟩
    | panic => exact ⟨fun _ => rfl, fun _ _ => rfl⟩
    | hang => exact ⟨fun _ => rfl, fun _ _ => rfl⟩
  | image p =>
    simp only
    cases offsetNew (webDev b fs p) with
    | ok base =>
      simp only
      cases ImgFs.new (offsetDev (webDev b fs p) base) with
      | ok x =>
        cases x with
        | some ifs => exact ⟨webPackImpl_not_ok, impl _⟩
        | none => exact ⟨fun _ => rfl, fun _ _ => rfl⟩
      | err e => exact ⟨fun _ => rfl, fun _ _ => rfl⟩
      | panic => exact ⟨fun _ => rfl, fun _ _ => rfl⟩
      | hang => exact ⟨fun _ => rfl, fun _ _ => rfl⟩
    | err e => exact ⟨fun _ => rfl, fun _ _ => rfl⟩
    | panic => exact ⟨fun _ => rfl, fun _ _ => rfl⟩
    | hang => exact ⟨fun _ => rfl, fun _ _ => rfl⟩

/-- **C106, what is refused.**  If the output is not a file, or the browser refuses to open it for writing or to close
it, packing does not report success, and nothing changes. -/
theorem C106_refused (b : Browser) (t : Tool) (fs : HostFs) (src : WebSource) (dest : HostPath)
    (hx : (∀ d, fs dest ≠ some (.file d)) ∨ b.noWrite dest = true ∨ b.noClose dest = true) :
    (browserPack b t fs src dest).reply ≠ .ok () ∧ (browserPack b t fs src dest).host = fs := by
  have impl : ∀ pack : PM WebFile Unit, (webPackImpl b fs dest pack).reply ≠ .ok () := by
    intro pack
    unfold webPackImpl
    by_cases hc : canWrite b fs dest = true
    · rw [if_pos hc]
      have hn : b.noClose dest = true := by
        unfold canWrite at hc
        rcases hx with hx | hx | hx
        · exfalso
          split at hc
          · next d hd => exact hx d hd
          · simp at hc
        · rw [hx] at hc; simp at hc
        · exact hx
      rcases pack newStream with ⟨r, s⟩
      cases r with
      | ok u => simp only [hn, if_true]; intro h; cases h
      | err e => intro h; cases h
      | panic => intro h; cases h
      | hang => intro h; cases h
    · rw [if_neg hc]; intro h; cases h
  have key : (browserPack b t fs src dest).reply ≠ .ok () := by
    unfold browserPack
    cases src with
    | folder p =>
      simp only
      cases webFsNew b fs t.fuel p with
      | ok tree => exact impl _
      | err e => intro h; cases h
      | panic => intro h; cases h
      | hang => intro h; cases h
    | image p =>
      simp only
      cases offsetNew (webDev b fs p) with
      | ok base =>
        simp only
        cases ImgFs.new (offsetDev (webDev b fs p) base) with
        | ok x =>
          cases x with
          | some ifs => exact impl _
          | none => intro h; cases h
        | err e => intro h; cases h
        | panic => intro h; cases h
        | hang => intro h; cases h
      | err e => intro h; cases h
      | panic => intro h; cases h
      | hang => intro h; cases h
  exact ⟨key, (C106_all_or_nothing b t fs src dest).1 key⟩

/-- **C105 is false for images with other names.**  Whatever the browser refuses: if a name in the image has a character
from `U+0100` on, the image is not packed, and nothing changes.  Such an image is valid: the tool itself makes one
from a folder with a file named `€`. -/
theorem C105_wide_name_false : (∀ {b : Browser} {t : Tool} {fs : HostFs} {p dest : HostPath} {img : Bytes}
      {tree : Path → Res (List FileEntry)} {content : Path → Bytes}, IsFile fs p img → ImageHolds img t.wfuel tree content →
      ∀ {q : Path} {e : FileEntry}, EntryIn tree q e → ¬ Latin1 e.name →
      (browserPack b t fs (.image p) dest).reply ≠ .ok () ∧ (browserPack b t fs (.image p) dest).host = fs) ∧
    ∃ s1, createImage (fileEnv (flatFs [(['€'], [1])]) (fun _ => none)) 1 ⟨⟨[], []⟩, []⟩ = (.ok (), s1) ∧
      ∀ wfuel, 1 < wfuel → ∃ tree content, ImageHolds s1.dev.img wfuel tree content ∧ EntryIn tree [] ⟨['€'], false, 1⟩ ∧
        ¬ Latin1 ['€'] := by
  constructor
  · intro b t fs p dest img tree content hp hold q e he hw
    have hne : (browserPack b t fs (.image p) dest).reply ≠ .ok () := by
      intro h
      have hr : b.noRead p = false := by
        cases hx : b.noRead p with
        | false => rfl
        | true =>
          unfold browserPack at h
          simp only at h
          cases hb : offsetNew (webDev b fs p) with
          | ok base => exact absurd hb (web_unreadable hx base)
          | err e => rw [hb] at h; cases h
          | panic => rw [hb] at h; cases h
          | hang => rw [hb] at h; cases h
      obtain ⟨base, vol, h1, h2, rfl, h4⟩ := hold
      rw [browserPack_image hp hr h1 h2] at h
      obtain ⟨s, g1, _⟩ := webPackImpl_ok h
      rcases repackWeb_cases rfl g1 with ⟨fs', _, hk, _⟩ | ⟨k1, _⟩
      · obtain ⟨ds, k1, k2, _⟩ := hk q he.1
        obtain ⟨_, l, hl, hel⟩ := he
        simp only [imgReadDir, k1, Res.ok_bind, Res.pure_eq, Res.ok.injEq] at hl
        subst hl
        obtain ⟨d, hd, rfl⟩ := List.mem_map.1 hel
        exact hw (k2 d hd)
      · exact absurd rfl (k1 ())
    exact ⟨hne, (C106_all_or_nothing b t fs (.image p) dest).1 hne⟩
  · obtain ⟨s1, h1⟩ := flat_packs euro_ok []
    refine ⟨s1, h1, fun wfuel hwf => ?_⟩
    obtain ⟨vol, k1, k2, k3⟩ := packed_open (flat_bounded _) (flat_faithful euro_ok.distinct) h1
    obtain ⟨k4, k5⟩ := k3 wfuel (flat_scanFuel (by simpa using hwf))
    refine ⟨_, _, ⟨0, vol, k1, k2, rfl, k5⟩, ?_, ?_⟩
    · obtain ⟨⟨n, d, len⟩, he, e1, e2, e3⟩ :=
        k4.entry ((flat_entries [] ⟨['€'], false, 1⟩).2 ⟨rfl, _, List.mem_singleton.2 rfl, rfl⟩)
      cases e1
      cases e2
      cases e3 rfl
      exact he
    · intro hl
      exact absurd (hl '€' (by simp)) (by decide)

/-- **C105, which images are packed.**  If nothing is refused and no write fails, an image of a representable tree is
packed in the browser exactly if all its names are made of characters below `U+0100`. -/
theorem C105_image_iff (hg : Grants b) {img old : Bytes} (hp : IsFile fs p img) (hdest : IsFile fs dest old)
    (h64 : img.length < 2 ^ 64) {tree : Path → Res (List FileEntry)} {content : Path → Bytes}
    (hold : ImageHolds img t.wfuel tree content) {all : List (Path × List FileEntry)} (hL : Listable tree)
    (ht : TreeOf tree all) (hF : Fits all) (hS : ∀ x ∈ all, StorableListing x.2) (hK : ∀ x ∈ all, TableWithin256K x.2)
    (hfu : all.length ≤ t.fuel) :
    (browserPack b t fs (.image p) dest).reply = .ok () ↔ ∀ q e, EntryIn tree q e → Latin1 e.name := by
  constructor
  · intro h q e he
    apply Classical.byContradiction
    intro hw
    exact (C105_wide_name_false.1 hp hold he hw).1 h
  · intro h
    refine C105_image_succeeds_partial hg hp hdest h64 hold hL ht hF hS hK ?_ hfu
    intro x hx e he
    obtain ⟨hd, hl⟩ := (ht.2 x.1 x.2).1 hx
    exact h x.1 e ⟨hd, x.2, hl, he⟩

/-! ## C107: the same folder packs to the same image -/

/-- **C107.**  Two browsers that list the same folder completely, in whatever order, and both succeed, write the same
image, byte for byte, and report the same progress: the order in which the browser lists the folder, the name of the
output file and what it held do not matter. -/
theorem C107_reproducible {dest' : HostPath} (hl : ListsAll b fs) (hl' : ListsAll b' fs)
    (h : (browserPack b t fs (.folder p) dest).reply = .ok ())
    (h' : (browserPack b' t fs (.folder p) dest').reply = .ok ()) :
    ∃ img, IsFile (browserPack b t fs (.folder p) dest).host dest img ∧
      IsFile (browserPack b' t fs (.folder p) dest').host dest' img ∧
      (browserPack b t fs (.folder p) dest).sent = (browserPack b' t fs (.folder p) dest').sent := by
  obtain ⟨tree, s, h1, h2, h3, h4⟩ := browserPack_folder h
  obtain ⟨tree', s', h1', h2', h3', h4'⟩ := browserPack_folder h'
  have hmem : ∀ d n, n ∈ b.names d ↔ n ∈ b'.names d := fun d n => by rw [hl d n, hl' d n]
  obtain rfl := populate_unique hmem _ h1 h1'
  have hno : nameOrder b = nameOrder b' := by
    unfold nameOrder
    congr 1
    funext d
    exact sortNames_eq (hmem d)
  have listed : ∀ {c : Browser} {x : PackState WebFile}, populate c fs t.fuel p = .ok tree →
      createImage (webEnv c (webFs c fs p tree)) t.fuel newStream = (.ok (), x) →
      ∀ q, DirOf (webFs c fs p tree).readDir q → ∃ l, (webFs c fs p tree).readDir q = .ok l ∧
        (stdFs (nameOrder c) fs p).readDir q = .ok l := by
    intro c x k1 k2 q hq
    obtain ⟨s2, g1, _⟩ := web_as_file k2
    obtain ⟨M, Loc, l0, hP⟩ := pack_packed web_bounded (web_faithful k1) g1
    obtain ⟨l, hl'⟩ := hP.listable q hq
    exact ⟨l, hl', web_readDir_ok k1 hl'⟩
  have hL := listed h1 h2
  have hL' := listed h1' h2'
  rw [← hno] at hL'
  have hrd : ∀ q, DirOf (webFs b fs p tree).readDir q →
      (webFs b' fs p tree).readDir q = (webFs b fs p tree).readDir q := by
    intro q hq
    obtain ⟨l, k1, k2⟩ := hL q hq
    have hstd : DirOf (stdFs (nameOrder b) fs p).readDir q := dirOf_mono (fun q hq l' hl' => by
      obtain ⟨l, k1, k2⟩ := hL q hq
      rw [k1] at hl'
      cases hl'
      exact k2) hq
    obtain ⟨l', k1', k2'⟩ := hL' q (dirOf_back hL' hstd)
    rw [k2] at k2'
    cases k2'
    rw [k1, k1']
  obtain ⟨r1, r2, _, r4, P, r5, r6⟩ := web_create h2
  obtain ⟨r1', r2', _, r4', P', r5', r6'⟩ := web_create h2'
  have hpts : (webFs b' fs p tree).pathToString = (webFs b fs p tree).pathToString := rfl
  rw [hpts, createP_congr hrd] at r1' r2' r4' r5' r6'
  have hW : (createP (webFs b fs p tree).readDir (webFs b fs p tree).pathToString t.fuel).ops.flatMap
        (opWrites (webFs b' fs p tree)) =
      (createP (webFs b fs p tree).readDir (webFs b fs p tree).pathToString t.fuel).ops.flatMap
        (opWrites (webFs b fs p tree)) := by
    simp only [List.flatMap]
    congr 1
    refine List.map_congr_left fun o ho => ?_
    cases o with
    | report x => rfl
    | write off d => rfl
    | copy q out n =>
      have e1 : ∃ k, (webCopy b fs p tree q 0 n).2 = .ok k := r2 _ ho
      have e2 : ∃ k, (webCopy b' fs p tree q 0 n).2 = .ok k := r2' _ ho
      obtain ⟨k, e1⟩ := e1
      obtain ⟨k', e2⟩ := e2
      obtain ⟨d, a1, a2, _⟩ := web_copy_ok e1
      obtain ⟨d', a1', a2', _⟩ := web_copy_ok e2
      rw [a1] at a1'
      cases a1'
      have : (webCopy b' fs p tree q 0 n).1 = (webCopy b fs p tree q 0 n).1 := by rw [a2, a2']
      simp only [opWrites, webFs]
      rw [this]
  rw [hW] at r5' r6'
  have hbuf : s'.dev.buf = s.dev.buf := by rw [r5, r5', r6, r6']
  refine ⟨s.dev.buf, by rw [h3]; exact set_same _ _ _, by rw [h3', hbuf]; exact set_same _ _ _, ?_⟩
  rw [h3, h3', r4, r4']

/-! ## The hypotheses can be met -/

/-- A browser that refuses nothing, on a host with the folder `/s` listed in one of two orders. -/
def pairBrowser (swap : Bool) : Browser where
  names := fun d => if d = [] then [['s']] else if d = [['s']] then (pairFiles swap).map Prod.fst else []
  noList := fun _ => false
  noRead := fun _ => false
  noCreate := fun _ => false
  noWrite := fun _ => false
  noClose := fun _ => false
  faults := fun _ => false
  text := fun _ => []

/-- The same, but for a file that cannot be closed. -/
example (swap : Bool) (t : Tool) : (browserPack { pairBrowser swap with noClose := fun _ => true } t pairHost
    (.folder [['s']]) [['s'], ['a']]).reply ≠ .ok () :=
  (C106_refused _ t _ _ _ (.inr (.inr rfl))).1

theorem pairBrowser_lists (swap : Bool) : ListsAll (pairBrowser swap) pairHost := by
  intro d n
  rw [pair_names]
  simp only [pairBrowser]
  split
  · next h => subst h; simp
  · split
    · next h => subst h; cases swap <;> simp [pairFiles, or_comm]
    · next h1 h2 => simp [h1, h2]

theorem pairBrowser_grants (swap : Bool) : Grants (pairBrowser swap) :=
  ⟨fun _ => ⟨rfl, rfl, rfl, rfl, rfl⟩, fun _ => rfl⟩

theorem pair_inOrder : InOrder pairHost (pairBrowser false).names := by
  refine fun d => ⟨?_, fun n => pairBrowser_lists false d n⟩
  simp only [pairBrowser]
  split
  · simp
  · split
    · decide
    · simp

theorem pair_depth : Depth pairHost [['s']] sampleTool.fuel := by
  intro q hq
  rcases List.eq_nil_or_concat q with rfl | ⟨q', c, rfl⟩
  · decide
  · rw [List.concat_eq_append, ← List.append_assoc] at hq
    rcases (pair_names _ _).1 hq with ⟨h, _⟩ | ⟨h, _⟩
    · cases h
    · obtain rfl : q' = [] := by simpa using h
      exact Nat.lt_succ_self 1

/-- Packing `/s` into `/s/a` succeeds, whatever the order in which the browser lists `/s`. -/
theorem pair_browser_packs (swap : Bool) :
    (browserPack (pairBrowser swap) sampleTool pairHost (.folder [['s']]) [['s'], ['a']]).reply = .ok () := by
  obtain ⟨img, hp⟩ := flat_hostPacks (t := sampleTool) (r := listedAs (pairBrowser false).names) (fs := pairHost)
    (src := [['s']]) (pair_ok false) rfl (by decide)
  exact (C105_like_tool (dest := [['s'], ['a']]) (pairBrowser_lists swap) (pairBrowser_grants swap) pair_inOrder rfl pair_depth (old := [1]) rfl hp).1

/-- The hypotheses of `C105_folder`, `C105_like_tool` and `C107_reproducible` hold for a folder of two files, of which
the first is the output file. -/
example : ListsAll (pairBrowser true) pairHost ∧ WellFormedHost pairHost ∧ ProperNames pairHost ∧
    pairHost [['s']] = some .dir ∧
    (∀ swap, (browserPack (pairBrowser swap) sampleTool pairHost (.folder [['s']]) [['s'], ['a']]).reply = .ok ()) ∧
    (pairBrowser true).names [['s']] ≠ (pairBrowser false).names [['s']] :=
  ⟨pairBrowser_lists _, pair_wellFormed, pair_properNames, rfl, pair_browser_packs, by decide⟩

/-- An output file on a device that is full after four writes, and a folder that cannot be listed: `C106_all_or_nothing`
is about these. -/
example : (browserPack { pairBrowser true with faults := fun k => k = 4 } sampleTool pairHost (.folder [['s']])
      [['s'], ['a']]).reply ≠ .ok () ∧
    (browserPack { pairBrowser true with noList := fun _ => true } sampleTool pairHost (.folder [['s']])
      [['s'], ['a']]).reply = .panic := by
  constructor
  · decide +kernel
  · rfl

/-- The hypotheses of `C105_image` and `C105_image_succeeds_partial` hold for the image of the sample, packed over itself;
that it is shorter than 2^64 bytes is clear for a file. -/
example : ∃ img tree, ImageHolds img sampleTool.wfuel tree sampleContent ∧ (img.length < 2 ^ 64 →
    (browserPack (pairBrowser true) sampleTool (oneImage img) (.image [['i']]) [['i']]).reply = .ok ()) := by
  obtain ⟨s1, h1⟩ := sample_packs []
  obtain ⟨vol, k1, k2, k3⟩ := packed_open sample'_bounded sample'_faithful h1
  obtain ⟨hs, k5⟩ := k3 3 sample_scanFuel
  obtain ⟨M, Loc, l0, hP⟩ := pack_packed sample'_bounded sample'_faithful h1
  obtain ⟨tree', t1, t2, t3, t4⟩ := hs.tree hP.listable sample_tree
  have hi : ImageHolds s1.dev.img sampleTool.wfuel _ sampleContent := ⟨0, vol, k1, k2, rfl, k5⟩
  refine ⟨s1.dev.img, _, hi, fun h64 => ?_⟩
  refine C105_image_succeeds_partial (pairBrowser_grants true) (img := s1.dev.img) (old := s1.dev.img) rfl rfl h64 hi ?_ t1
    ⟨by rw [t3]; exact sample_fits.1, ?_⟩ ?_ ?_ ?_ (by rw [t2]; decide)
  · intro p hp
    obtain ⟨l, h1⟩ := hP.listable p ((hs.dirs p).2 hp)
    obtain ⟨l', h2, _⟩ := hs.lists p l ((hs.dirs p).2 hp) h1
    exact ⟨l', h2⟩
  · intro x hx
    obtain ⟨y, hy, hp⟩ := t4 x hx
    have := hp.length_eq
    simp only [List.length_map] at this
    rw [← this]
    exact sample_fits.2 y hy
  · intro x hx
    obtain ⟨y, hy, hp⟩ := t4 x hx
    exact sig_storable hp (sample_storable y hy)
  · intro x hx
    obtain ⟨y, hy, hp⟩ := t4 x hx
    exact few_within (sig_few hp (sample_few y hy))
  · intro x hx e he
    obtain ⟨y, hy, hp⟩ := t4 x hx
    obtain ⟨e', he', hn, _⟩ := sig_mem hp.symm he
    rw [← hn]
    exact sample_latin1 y hy e' he'

end Xdvdfs.Props
