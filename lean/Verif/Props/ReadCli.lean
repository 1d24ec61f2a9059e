import Verif.Proof.ReadCli
import Verif.Props.Checksum
import Verif.Props.CompressArgs
import Verif.Spec.ReadCli

/-!
# C117–C119: the reading commands, from their arguments
-/

namespace Xdvdfs.Props

open Xdvdfs Spec

variable {H : Type} {h : Host} {rd : Reader H} {fs : HostFs}

/-! ## C117: how an image is stored makes no difference -/

theorem disc_agrees {disc part : Bytes} {o : Nat} (ho : o < 2 ^ 44) (hl : o ≤ disc.length) (hd : disc.drop o = part) :
    AgreeLow (offsetDev (fileDev disc) o) (fileDev part) := by
  intro off n hoff
  show offsetRead (fileDev disc).read o off n = fileRead part off n
  unfold offsetRead
  rw [if_pos (by omega)]
  show fileRead disc (off + o) n = _
  subst hd
  unfold fileRead
  split
  · rfl
  · rw [List.length_drop]
    by_cases hle : off + n ≤ disc.length - o
    · rw [if_pos hle, if_pos (by omega)]
      unfold slice
      rw [List.drop_drop, Nat.add_comm off o]
    · rw [if_neg hle, if_neg (by omega)]

theorem partitionOffsets_low {o : Nat} (h : o ∈ partitionOffsets) : o < 2 ^ 44 := by
  revert h
  unfold partitionOffsets
  simp only [List.mem_cons, List.not_mem_nil, or_false]
  rintro (rfl | rfl | rfl | rfl) <;> decide

/-- A reading command on a whole disc runs on its partition. -/
theorem readCommand_disc {disc part : Bytes} {image : Str} (hp : PlainFile h fs image disc) (hd : DiscHolds disc part)
    (shown : Str) (cmd : ReadCmd) : readCommand h rd fs image shown cmd = readOn rd (fileDev part) shown cmd := by
  obtain ⟨⟨q, hst⟩, hext⟩ := hp
  obtain ⟨before, o, after, h1, h2, h3, h4, h5⟩ := hd
  have hlow : o < 2 ^ 44 := partitionOffsets_low (by rw [h1]; simp)
  have hag := disc_agrees hlow h2 h3
  have hvol : VolumeAt (fileDev disc) o := by
    obtain ⟨b, hb, hv⟩ := h4
    refine ⟨b, ?_, hv⟩
    rw [Nat.zero_add, ← hag _ _ (by decide)] at hb
    have e := C07_offset_translation (fileDev disc) o 65536 2048 (by omega)
    rw [e] at hb
    rw [Nat.add_comm o]
    exact hb
  have ho : offsetNew (fileDev disc) = .ok o :=
    (C07_offset_first_valid (fileDev disc) (fileDev_sane _ _) o).2 ⟨before, after, h1, h5, hvol⟩
  unfold readCommand openPath
  rw [if_neg hext, hst]
  simp only [ho, Res.ok_bind, Res.pure_eq]
  exact readOn_agree rd hag shown cmd

theorem plain_disc {img : Bytes} (hv : VolumeAt (fileDev img) 0) : DiscHolds img img :=
  ⟨[], 0, _, rfl, Nat.zero_le _, rfl, hv, nofun⟩

/-- C117, whole discs: every reading command shows for a whole disc what it shows for its game partition stored as a
file of its own, whatever the hosts and however the command ends. -/
theorem C117_whole_disc (h h' : Host) (rd : Reader H) {fs fs' : HostFs} {image image' : Str} {disc part : Bytes}
    (hp : PlainFile h fs image disc) (hd : DiscHolds disc part) (hp' : PlainFile h' fs' image' part) (shown : Str)
    (cmd : ReadCmd) : readCommand h rd fs image shown cmd = readCommand h' rd fs' image' shown cmd := by
  have hv : VolumeAt (fileDev part) 0 := by obtain ⟨_, _, _, _, _, _, h4, _⟩ := hd; exact h4
  rw [readCommand_disc hp hd, readCommand_disc hp' (plain_disc hv)]

theorem volumeAt_of_read {img : Bytes} {vol : VolDesc} (hv : readVolume (fileDev img) = .ok vol) :
    VolumeAt (fileDev img) 0 := by
  obtain ⟨b, h1, h2, _⟩ := (C06_read_volume_iff _ _).1 hv
  exact ⟨b, by rw [Nat.zero_add]; exact h1, h2⟩

/-- C117, compressed images: after a directory was compressed, every reading command shows for the first part what it
shows for the image that packing the directory makes, stored as a file, on whatever host. -/
theorem C117_compressed (h h' : Host) {t : Tool} {r : DirReader} {most : Path → (off n : Nat) → Nat} {c : Ciso}
    {fs fs' : HostFs} {source name stem dir : Str} {src d : HostPath} (hs : ∀ b, (r.split b).flatten = b)
    (hm : WholeReads most) (hc : CisoWorks c) (hn : NumberedParts c) (hst : h.stat fs source = some (src, .dir))
    (hname : HostName name) (hstem : HasStem name stem) (hd : PrefixNames h fs dir d)
    (hno : NoPartInSource fs src d stem) (hfresh : ∀ i, fs (d ++ [partFile stem i]) = none)
    (hw : cmdCompressArgs h t r most c fs source (some (dir ++ name)) = (.ok (), fs')) :
    ∃ img n, HostPacksTo t r fs src img ∧ ∀ rd : Reader H, rd.ciso = c → n < rd.fuel →
      ∀ fs'' image', PlainFile h' fs'' image' img → ∀ shown cmd,
        readCommand h rd fs' (dir ++ partFile stem 1) shown cmd = readCommand h' rd fs'' image' shown cmd := by
  obtain ⟨img, n, h1, h2, h3⟩ := C92_reads_back hs hm hc hn hst hname hstem hd hno hfresh hw
  refine ⟨img, n, h1, ?_⟩
  intro rd hrc hf fs'' image' hp shown cmd
  obtain ⟨vol, hv, _⟩ := h3
  rw [readCommand_disc hp (plain_disc (volumeAt_of_read hv))]
  unfold readCommand
  rw [hrc, h2 _ hf]

/-! ## C118 and C119: several images -/

theorem readEach_spec (cmd : ReadCmd) : ∀ images : List Str,
    ((readEach h rd fs cmd images).outcome = .ok () ↔
      ∀ i ∈ images, (readCommand h rd fs i i cmd).outcome = .ok ()) ∧
    ((readEach h rd fs cmd images).outcome = .ok () →
      (readEach h rd fs cmd images).lines = images.flatMap (fun i => (readCommand h rd fs i i cmd).lines)) ∧
    ∀ done image rest, images = done ++ image :: rest →
      (∀ i ∈ done, (readCommand h rd fs i i cmd).outcome = .ok ()) →
      (readCommand h rd fs image image cmd).outcome ≠ .ok () →
      (readEach h rd fs cmd images).outcome = (readCommand h rd fs image image cmd).outcome ∧
      (readEach h rd fs cmd images).lines = done.flatMap (fun i => (readCommand h rd fs i i cmd).lines) ++
        (readCommand h rd fs image image cmd).lines := by
  intro images
  induction images with
  | nil => exact ⟨by simp [readEach], by simp [readEach], by intro done image rest h; simp at h⟩
  | cons x xs ih =>
    obtain ⟨i1, i2, i3⟩ := ih
    unfold readEach
    simp only
    cases hx : (readCommand h rd fs x x cmd).outcome with
    | ok u =>
      simp only
      refine ⟨by rw [i1]; simp [hx], fun ho => by rw [i2 ho]; simp, ?_⟩
      intro done image rest heq hdone himg
      cases done with
      | nil => simp only [List.nil_append, List.cons.injEq] at heq; rw [heq.1] at hx; exact absurd hx himg
      | cons y ys =>
        simp only [List.cons_append, List.cons.injEq] at heq
        obtain ⟨rfl, heq⟩ := heq
        obtain ⟨j1, j2⟩ := i3 ys image rest heq (fun i hi => hdone i (by simp [hi])) himg
        exact ⟨j1, by rw [j2]; simp⟩
    | err e | panic | hang =>
      simp only [hx]
      refine ⟨by simp [hx], nofun, ?_⟩
      intro done image rest heq hdone himg
      cases done with
      | nil =>
        simp only [List.nil_append, List.cons.injEq] at heq
        obtain ⟨rfl, _⟩ := heq
        simp [hx]
      | cons y ys =>
        simp only [List.cons_append, List.cons.injEq] at heq
        obtain ⟨rfl, heq⟩ := heq
        rw [hdone x (by simp)] at hx
        cases hx

/-- What the checksum command prints for one image. -/
theorem checksum_one (image : Str) :
    (∀ d, ChecksumIs h rd fs image d → readCommand h rd fs image image .checksum = ⟨[.digest d image], .ok ()⟩) ∧
    ((¬ ∃ d, ChecksumIs h rd fs image d) → (readCommand h rd fs image image .checksum).lines = [] ∧
      (readCommand h rd fs image image .checksum).outcome ≠ .ok ()) := by
  constructor
  · rintro d ⟨dev, vol, h1, h2, h3⟩
    simp only [readCommand, h1, readOn, checksumOn, h2, h3, Printed.ofRes]
  · intro hno
    unfold readCommand
    cases h1 : openPath h rd.ciso rd.fuel fs image with
    | ok dev =>
      simp only [readOn, checksumOn]
      cases h2 : readVolume dev with
      | ok vol =>
        simp only
        cases h3 : checksum rd.hash dev vol rd.fuel with
        | ok d => exact absurd ⟨d, dev, vol, h1, h2, h3⟩ hno
        | err e => exact ⟨rfl, nofun⟩
        | panic => exact ⟨rfl, nofun⟩
        | hang => exact ⟨rfl, nofun⟩
      | err e => exact ⟨rfl, nofun⟩
      | panic => exact ⟨rfl, nofun⟩
      | hang => exact ⟨rfl, nofun⟩
    | err e => exact ⟨rfl, nofun⟩
    | panic => exact ⟨rfl, nofun⟩
    | hang => exact ⟨rfl, nofun⟩

/-- What the tree command prints for one image. -/
theorem tree_one (image : Str) :
    (∀ l, TreeIs h rd fs image l → readCommand h rd fs image image .tree = ⟨l.map .text, .ok ()⟩) ∧
    ((¬ ∃ l, TreeIs h rd fs image l) → (readCommand h rd fs image image .tree).lines = [] ∧
      (readCommand h rd fs image image .tree).outcome ≠ .ok ()) := by
  constructor
  · rintro d ⟨dev, h1, h2⟩
    simp only [readCommand, h1, readOn, h2, Printed.ofRes]
  · intro hno
    unfold readCommand
    cases h1 : openPath h rd.ciso rd.fuel fs image with
    | ok dev =>
      simp only [readOn]
      cases h2 : cmdTree rd.checked true dev image rd.fuel with
      | ok l => exact absurd ⟨l, dev, h1, h2⟩ hno
      | err e => exact ⟨rfl, nofun⟩
      | panic => exact ⟨rfl, nofun⟩
      | hang => exact ⟨rfl, nofun⟩
    | err e => exact ⟨rfl, nofun⟩
    | panic => exact ⟨rfl, nofun⟩
    | hang => exact ⟨rfl, nofun⟩

theorem exitStatus_zero {r : Res Unit} : exitStatus r = some 0 ↔ r = .ok () := by
  cases r with
  | ok u => simp [exitStatus]
  | err e => simp [exitStatus]
  | panic => simp [exitStatus]
  | hang => simp [exitStatus]

/-- C118: the checksum command has exit status 0 exactly if every image has a checksum; then it prints for each image,
in order, its checksum and its path.  Otherwise it prints this for the images before the first that has none. -/
theorem C118_checksum_command (h : Host) (rd : Reader H) (fs : HostFs) (images : List Str) :
    (exitStatus (cmdChecksum h rd fs images).outcome = some 0 ↔ ∀ i ∈ images, ∃ d, ChecksumIs h rd fs i d) ∧
    ∀ (done : List (Str × H)) rest, images = done.map (·.1) ++ rest → (∀ x ∈ done, ChecksumIs h rd fs x.1 x.2) →
      (rest = [] ∨ ∃ image rest', rest = image :: rest' ∧ ¬ ∃ d, ChecksumIs h rd fs image d) →
      (cmdChecksum h rd fs images).lines = done.map (fun x => .digest x.2 x.1) := by
  obtain ⟨s1, s2, s3⟩ := readEach_spec (h := h) (rd := rd) (fs := fs) .checksum images
  have one := fun i => checksum_one (h := h) (rd := rd) (fs := fs) i
  have hiff : ∀ i, (readCommand h rd fs i i .checksum).outcome = .ok () ↔ ∃ d, ChecksumIs h rd fs i d := by
    intro i
    constructor
    · intro ho
      apply Classical.byContradiction
      intro hno
      exact ((one i).2 hno).2 ho
    · rintro ⟨d, hd⟩; rw [(one i).1 d hd]
  have hlines : ∀ (done : List (Str × H)), (∀ x ∈ done, ChecksumIs h rd fs x.1 x.2) →
      (done.map (·.1)).flatMap (fun i => (readCommand h rd fs i i .checksum).lines) =
        done.map (fun x => .digest x.2 x.1) := by
    intro done hdone
    induction done with
    | nil => rfl
    | cons x xs ih =>
      rw [List.map_cons, List.flatMap_cons, ih (fun y hy => hdone y (by simp [hy])),
        (one x.1).1 _ (hdone x (by simp))]
      rfl
  refine ⟨by rw [exitStatus_zero, cmdChecksum, s1]; simp only [hiff], ?_⟩
  intro done rest heq hdone hrest
  have hall : ∀ i ∈ done.map (·.1), (readCommand h rd fs i i .checksum).outcome = .ok () := by
    intro i hi
    obtain ⟨x, hx, rfl⟩ := List.mem_map.1 hi
    exact (hiff _).2 ⟨_, hdone x hx⟩
  rcases hrest with rfl | ⟨image, rest', rfl, hno⟩
  · rw [List.append_nil] at heq
    rw [cmdChecksum, s2 (s1.2 (by rw [heq]; exact hall)), heq, hlines done hdone]
  · obtain ⟨_, j⟩ := s3 _ image rest' heq hall (by rw [ne_eq, hiff]; exact hno)
    rw [cmdChecksum, j, hlines done hdone, ((one image).2 hno).1, List.append_nil]

/-- C118, the contents decide: for two packed images with the same files and directories the command prints the same
checksum, whatever the hosts, the order of the entries and the layout of the images. -/
theorem C118_same_contents (h h' : Host) {fs fs' : HostFs} {image image' : Str} {img img' : Bytes} {S S' : SourceFs}
    {content content' : Path → Bytes} (hp : PlainFile h fs image img) (hp' : PlainFile h' fs' image' img')
    (hs : PackedFrom img S content) (hs' : PackedFrom img' S' content')
    (hsame : SameSource S.readDir S'.readDir content content') :
    ∃ n input, ∀ (H : Type) (rd : Reader H), n < rd.fuel →
      (cmdChecksum h rd fs [image]) = ⟨[.digest (rd.hash input) image], .ok ()⟩ ∧
      (cmdChecksum h' rd fs' [image']) = ⟨[.digest (rd.hash input) image'], .ok ()⟩ := by
  obtain ⟨⟨faults, pf, img0, s, k1, rfl⟩, hb, hf, hnames⟩ := hs
  obtain ⟨⟨faults', pf', img0', s', k1', rfl⟩, hb', hf', hnames'⟩ := hs'
  obtain ⟨_, _, _, hP⟩ := pack_packed hb hf k1
  obtain ⟨_, _, _, hP'⟩ := pack_packed hb' hf' k1'
  obtain ⟨vol, v1, _, _, _, v2⟩ := pack_success hb hf k1
  obtain ⟨vol', v1', _, _, _, v2'⟩ := pack_success hb' hf' k1'
  obtain ⟨n, out, g⟩ := checksum_of_same v2 v2' hP.distinct hP'.distinct hsame (fun p e he => (hnames p e he).2.1)
  refine ⟨n, out, fun H rd hk => ?_⟩
  have e1 : readCommand h rd fs image image .checksum = ⟨[.digest (rd.hash out) image], .ok ()⟩ := by
    rw [readCommand_disc hp (plain_disc (volumeAt_of_read v1))]
    simp [readOn, checksumOn, v1, checksum, (g _ hk).1, Printed.ofRes]
  have e2 : readCommand h' rd fs' image' image' .checksum = ⟨[.digest (rd.hash out) image'], .ok ()⟩ := by
    rw [readCommand_disc hp' (plain_disc (volumeAt_of_read v1'))]
    simp [readOn, checksumOn, v1', checksum, (g _ hk).2, Printed.ofRes]
  simp [cmdChecksum, readEach, e1, e2]

/-- C119: the list mode of the `extract-xiso` command has exit status 0 exactly if the tree of every image can be
listed; it prints the listings in order, up to the first image that cannot be listed. -/
theorem C119_list_mode (h : Host) (rd : Reader H) (fs : HostFs) (images : List Str) :
    (exitStatus (exisoList h rd fs images).outcome = some 0 ↔ ∀ i ∈ images, ∃ l, TreeIs h rd fs i l) ∧
    ∀ (done : List (Str × List Str)) rest, images = done.map (·.1) ++ rest → (∀ x ∈ done, TreeIs h rd fs x.1 x.2) →
      (rest = [] ∨ ∃ image rest', rest = image :: rest' ∧ ¬ ∃ l, TreeIs h rd fs image l) →
      (exisoList h rd fs images).lines = done.flatMap (fun x => x.2.map .text) := by
  obtain ⟨s1, s2, s3⟩ := readEach_spec (h := h) (rd := rd) (fs := fs) .tree images
  have one := fun i => tree_one (h := h) (rd := rd) (fs := fs) i
  have hiff : ∀ i, (readCommand h rd fs i i .tree).outcome = .ok () ↔ ∃ l, TreeIs h rd fs i l := by
    intro i
    constructor
    · intro ho
      apply Classical.byContradiction
      intro hno
      exact ((one i).2 hno).2 ho
    · rintro ⟨d, hd⟩; rw [(one i).1 d hd]
  have hlines : ∀ (done : List (Str × List Str)), (∀ x ∈ done, TreeIs h rd fs x.1 x.2) →
      (done.map (·.1)).flatMap (fun i => (readCommand h rd fs i i .tree).lines) =
        done.flatMap (fun x => x.2.map .text) := by
    intro done hdone
    induction done with
    | nil => rfl
    | cons x xs ih =>
      rw [List.map_cons, List.flatMap_cons, ih (fun y hy => hdone y (by simp [hy])),
        (one x.1).1 _ (hdone x (by simp))]
      rfl
  refine ⟨by rw [exitStatus_zero, exisoList, s1]; simp only [hiff], ?_⟩
  intro done rest heq hdone hrest
  have hall : ∀ i ∈ done.map (·.1), (readCommand h rd fs i i .tree).outcome = .ok () := by
    intro i hi
    obtain ⟨x, hx, rfl⟩ := List.mem_map.1 hi
    exact (hiff _).2 ⟨_, hdone x hx⟩
  rcases hrest with rfl | ⟨image, rest', rfl, hno⟩
  · rw [List.append_nil] at heq
    rw [exisoList, s2 (s1.2 (by rw [heq]; exact hall)), heq, hlines done hdone]
  · obtain ⟨_, j⟩ := s3 _ image rest' heq hall (by rw [ne_eq, hiff]; exact hno)
    rw [exisoList, j, hlines done hdone, ((one image).2 hno).1, List.append_nil]

/-! ## Concrete cases -/

/-- Zeros before an image make a whole disc. -/
theorem zeros_disc {n : Nat} (hn : n = 405798912) {img : Bytes} (hv : VolumeAt (fileDev img) 0) :
    DiscHolds (List.replicate n 0 ++ img) img := by
  refine ⟨[0], n, [265879552, 34078720], by rw [hn]; rfl, by simp, by simp, hv, ?_⟩
  rintro o' ho' ⟨b, hb, hm, _⟩
  rw [List.mem_singleton] at ho'
  subst ho'
  rw [fileDev_read] at hb
  unfold fileRead at hb
  rw [if_neg (by decide), if_pos (by rw [List.length_append, List.length_replicate]; omega)] at hb
  have e : slice (List.replicate n 0 ++ img) (0 + 65536) 2048 = List.replicate 2048 0 := by
    have := slice_mid [] (List.replicate n 0) img (0 + 65536) 2048 (by rw [List.length_replicate]; omega)
    simp only [List.nil_append, List.length_nil, Nat.zero_add] at this
    rw [Nat.zero_add, this]
    unfold slice
    rw [List.drop_replicate, List.take_replicate, show min 2048 (n - 65536) = 2048 by omega]
  rw [e] at hb
  cases hb
  rw [List.take_replicate] at hm
  revert hm
  decide

/-- A host with an image in the file `x.iso` and a whole disc with it in the file `d.iso`. -/
def twoForms (img disc : Bytes) : HostFs := fun q =>
  if q = [] then some .dir
  else if q = [['x', '.', 'i', 's', 'o']] then some (.file img)
  else if q = [['d', '.', 'i', 's', 'o']] then some (.file disc)
  else none

theorem twoForms_plain (img disc : Bytes) :
    PlainFile ⟨[], fun _ => .none⟩ (twoForms img disc) ['x', '.', 'i', 's', 'o'] img ∧
    PlainFile ⟨[], fun _ => .none⟩ (twoForms img disc) ['d', '.', 'i', 's', 'o'] disc :=
  ⟨⟨⟨[['x', '.', 'i', 's', 'o']], rfl⟩, by decide⟩, ⟨⟨[['d', '.', 'i', 's', 'o']], rfl⟩, by decide⟩⟩

theorem checksumIs_of_prints {image : Str} {d : H} (hp : cmdChecksum h rd fs [image] = ⟨[.digest d image], .ok ()⟩) :
    ChecksumIs h rd fs image d := by
  have h1 := (C118_checksum_command h rd fs [image]).1.1 (by rw [hp]; rfl)
  obtain ⟨d', h2⟩ := h1 image (by simp)
  have h3 := (C118_checksum_command h rd fs [image]).2 [(image, d')] [] rfl (by simpa using h2) (.inl rfl)
  rw [hp] at h3
  simp only [List.map_cons, List.map_nil, List.cons.injEq, Line.digest.injEq, and_true] at h3
  rw [h3]; exact h2

theorem ChecksumIs.of_same {h' : Host} {fs' : HostFs} {image image' : Str} {d : H}
    (heq : ∀ shown cmd, readCommand h' rd fs' image' shown cmd = readCommand h rd fs image shown cmd)
    (hc : ChecksumIs h rd fs image d) : ChecksumIs h' rd fs' image' d := by
  apply checksumIs_of_prints
  obtain ⟨dev, vol, h1, h2, h3⟩ := hc
  have e : readCommand h' rd fs' image' image' .checksum = ⟨[.digest d image'], .ok ()⟩ := by
    rw [heq image' .checksum]
    simp only [readCommand, h1, readOn, checksumOn, h2, h3, Printed.ofRes]
  simp [cmdChecksum, readEach, e]

/-- The hypotheses of C117 for whole discs, and of C118, hold for the sample image, alone and behind zeros: both have the
same checksum, and a third image, which does not exist, makes the command fail after printing both. -/
example (n : Nat) (hn : n = 405798912) : ∃ img fs, PackedFrom img sampleFs' sampleContent ∧
    PlainFile ⟨[], fun _ => .none⟩ fs ['x', '.', 'i', 's', 'o'] img ∧
    PlainFile ⟨[], fun _ => .none⟩ fs ['d', '.', 'i', 's', 'o'] (List.replicate n 0 ++ img) ∧
    DiscHolds (List.replicate n 0 ++ img) img ∧
    ∃ m input, ∀ rd : Reader Bytes, m < rd.fuel →
      exitStatus (cmdChecksum ⟨[], fun _ => .none⟩ rd fs
        [['x', '.', 'i', 's', 'o'], ['d', '.', 'i', 's', 'o'], ['n']]).outcome ≠ some 0 ∧
      (cmdChecksum ⟨[], fun _ => .none⟩ rd fs [['x', '.', 'i', 's', 'o'], ['d', '.', 'i', 's', 'o'], ['n']]).lines =
        [.digest (rd.hash input) ['x', '.', 'i', 's', 'o'], .digest (rd.hash input) ['d', '.', 'i', 's', 'o']] := by
  obtain ⟨s, k1⟩ := sample_packs []
  have hP : PackedFrom s.dev.img sampleFs' sampleContent :=
    ⟨⟨_, _, _, _, k1, rfl⟩, sample'_bounded, sample'_faithful, sample_hostNames⟩
  obtain ⟨vol, v1, _⟩ := pack_success sample'_bounded sample'_faithful k1
  have hdisc := zeros_disc hn (volumeAt_of_read v1)
  obtain ⟨p1, p2⟩ := twoForms_plain s.dev.img (List.replicate n 0 ++ s.dev.img)
  refine ⟨s.dev.img, _, hP, p1, p2, hdisc, ?_⟩
  obtain ⟨m, input, g⟩ := C118_same_contents ⟨[], fun _ => .none⟩ ⟨[], fun _ => .none⟩ p1 p1 hP hP (SameSource.refl _ _)
  refine ⟨m, input, fun rd hk => ?_⟩
  have c1 := checksumIs_of_prints (g _ rd hk).1
  have c2 := ChecksumIs.of_same (C117_whole_disc _ _ rd p2 hdisc p1) c1
  have c3 : ¬ ∃ d, ChecksumIs ⟨[], fun _ => .none⟩ rd (twoForms s.dev.img (List.replicate n 0 ++ s.dev.img)) ['n'] d := by
    rintro ⟨d, dev, vol, h1, _⟩
    have e : openPath ⟨[], fun _ => .none⟩ rd.ciso rd.fuel (twoForms s.dev.img (List.replicate n 0 ++ s.dev.img)) ['n'] =
        .err .io := by
      unfold openPath
      rw [if_neg (by decide)]
      rfl
    rw [e] at h1
    cases h1
  obtain ⟨a1, a2⟩ := C118_checksum_command ⟨[], fun _ => .none⟩ rd (twoForms s.dev.img (List.replicate n 0 ++ s.dev.img))
    [['x', '.', 'i', 's', 'o'], ['d', '.', 'i', 's', 'o'], ['n']]
  refine ⟨fun h => c3 (a1.1 h _ (by simp)), ?_⟩
  exact a2 [(_, _), (_, _)] [['n']] rfl (by simpa using ⟨c1, c2⟩) (.inr ⟨_, _, rfl, c3⟩)

/-- The hypotheses of C117 for compressed images hold for a directory with a file, with an encoder that puts each sector
into a part of its own: the first part lists like the packed image. -/
example : ∃ fs' img n, cmdCompressArgs ⟨[], fun _ => .none⟩ sampleTool (listReader gamesDom twoGames) wholeReads
      splitCiso twoGames ['/', 'g', '.', '1'] (some (['/'] ++ ['x', '.', 'c', 's', 'o'])) = (.ok (), fs') ∧
    HostPacksTo sampleTool (listReader gamesDom twoGames) twoGames [['g', '.', '1']] img ∧
    ∀ rd : Reader Bytes, rd.ciso = splitCiso → n < rd.fuel → ∀ cmd,
      readCommand ⟨[], fun _ => .none⟩ rd fs' (['/'] ++ partFile ['x'] 1) ['x'] cmd =
        readCommand ⟨[], fun _ => .none⟩ rd (twoForms img []) ['x', '.', 'i', 's', 'o'] ['x'] cmd := by
  have hst : Host.stat ⟨[], fun _ => .none⟩ twoGames ['/', 'g', '.', '1'] = some ([['g', '.', '1']], .dir) := rfl
  have hname : HostName ['x', '.', 'c', 's', 'o'] := by unfold HostName; decide
  have hstem : HasStem ['x', '.', 'c', 's', 'o'] ['x'] := .inl ⟨['c', 's', 'o'], rfl, by decide, by decide⟩
  have hd : PrefixNames ⟨[], fun _ => .none⟩ twoGames ['/'] [] := ⟨.inr rfl, by decide, .inr ⟨by decide, rfl⟩⟩
  have hfresh : ∀ i, twoGames ([] ++ [partFile ['x'] i]) = none := by
    intro i
    apply Classical.byContradiction
    intro hne
    rcases twoGames_dom hne with h | h | h | h | h <;> simp [partFile] at h
  have hno : NoPartInSource twoGames [['g', '.', '1']] [] ['x'] := by
    intro i x hx
    rw [hfresh] at hx
    cases hx
  have hpw : PartsWritable ⟨[], fun _ => .none⟩ twoGames [] ['x'] := fun i => ⟨rfl, by rw [hfresh]; simp⟩
  obtain ⟨img, hp⟩ := flat_hostPacks (t := sampleTool) (r := listReader gamesDom twoGames) (fs := twoGames)
    (src := [['g', '.', '1']]) a1_ok rfl (by decide)
  have hsp : ∀ b, ((listReader gamesDom twoGames).split b).flatten = b := by intro b; simp [listReader]
  obtain ⟨fs', hw⟩ := C92_compress_succeeds (most := wholeReads) (c := splitCiso) hsp wholeReads_ok split_numbered hst
    ⟨['/'], rfl, hname, hstem, hd⟩ hno hpw (by decide) hp
  obtain ⟨img, n, h1, h2⟩ := C117_compressed (H := Bytes) ⟨[], fun _ => .none⟩ ⟨[], fun _ => .none⟩ hsp wholeReads_ok
    split_works split_numbered hst hname hstem hd hno hfresh hw
  exact ⟨fs', img, n, hw, h1, fun rd hrc hf cmd => h2 rd hrc hf _ _ (twoForms_plain img []).1 _ cmd⟩

/-- An image with an empty root directory. -/
def emptyImage (n : Nat) : Bytes := List.replicate n 0 ++ (VolDesc.new ⟨0, 0⟩).ser

/-- What C119 speaks of: such an image is listed with a line for no files, and list mode then stops at a path with no
image. -/
example (n : Nat) (hn : n = 65536) (rd : Reader Bytes) (hf : 0 < rd.fuel) :
    TreeIs ⟨[], fun _ => .none⟩ rd (twoForms (emptyImage n) []) ['x', '.', 'i', 's', 'o']
      ["0 files, 0 bytes in x.iso".toList] ∧
    (exisoList ⟨[], fun _ => .none⟩ rd (twoForms (emptyImage n) []) [['x', '.', 'i', 's', 'o'], ['n']]).lines =
      [.text "0 files, 0 bytes in x.iso".toList] := by
  have hv : readVolume (fileDev (emptyImage n)) = .ok (VolDesc.new ⟨0, 0⟩) := by
    rw [C06_read_volume_iff]
    have hw := VolDesc.new_wf ⟨0, 0⟩
    have hl := VolDesc.ser_length _ hw
    refine ⟨(VolDesc.new ⟨0, 0⟩).ser, ?_, (C02_volume_new_roundtrip _).2.1, (VolDesc.deser_ser _ hw).symm⟩
    rw [fileDev_read]
    unfold fileRead emptyImage
    rw [if_neg (by decide), if_pos (by rw [List.length_append, hl, List.length_replicate, hn]; exact Nat.le_refl _),
      slice_append_right _ _ _ _ (by rw [List.length_replicate]; omega), List.length_replicate, hn]
    simp only [slice, Nat.sub_self, List.drop_zero]
    rw [List.take_of_length_le (by omega)]
  have ht : TreeIs ⟨[], fun _ => .none⟩ rd (twoForms (emptyImage n) []) ['x', '.', 'i', 's', 'o']
      ["0 files, 0 bytes in x.iso".toList] := by
    refine ⟨offsetDev (fileDev (emptyImage n)) 0, ?_, ?_⟩
    · unfold openPath
      rw [if_neg (by decide), show Host.stat ⟨[], fun _ => .none⟩ (twoForms (emptyImage n) []) ['x', '.', 'i', 's', 'o'] =
        some ([['x', '.', 'i', 's', 'o']], .file (emptyImage n)) from rfl]
      simp only [offsetNew_zero hv, Res.ok_bind, Res.pure_eq]
    · obtain ⟨f, hf⟩ : ∃ f, rd.fuel = f + 1 := ⟨rd.fuel - 1, by omega⟩
      rw [cmdTree_agree (offsetDev_zero _), hf]
      unfold cmdTree openVolume openImage fileTree fileTreeLoop
      simp only [if_true, Res.ok_bind, hv, Res.pure_eq]
      have hw : walkDirentTree (fileDev (emptyImage n)) (VolDesc.new ⟨0, 0⟩).root (f + 1) = .ok [] := by
        unfold walkDirentTree
        rw [if_pos (by decide)]
      simp only [hw, Res.ok_bind, subdirsOf, List.filterMap_nil, List.reverse_nil, List.nil_append, List.map_nil]
      unfold fileTreeLoop treeTotals
      simp only [Res.ok_bind, List.reverse_nil, List.map_nil, List.nil_append]
      congr 1
  refine ⟨ht, ?_⟩
  refine (C119_list_mode _ rd _ _).2 [(_, _)] [['n']] rfl (by simpa using ht) (.inr ⟨_, _, rfl, ?_⟩)
  rintro ⟨l, dev, h1, _⟩
  have e : openPath ⟨[], fun _ => .none⟩ rd.ciso rd.fuel (twoForms (emptyImage n) []) ['n'] = .err .io := by
    unfold openPath
    rw [if_neg (by decide)]
    rfl
  rw [e] at h1
  cases h1

end Xdvdfs.Props
