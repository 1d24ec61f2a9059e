import Verif.Props.Cli
import Verif.Props.Unpack
import Verif.Props.Checksum
import Verif.Proof.StdFs

/-!
# Properties of packing a directory of the host (C77, C78, C79)
-/

namespace Xdvdfs.Props

open Xdvdfs Spec

/-- The last flush of the output buffer, when the file is closed, did not fail. -/
def DirClosesCleanly (t : Tool) (r : DirReader) (faults : Faults) (fs : HostFs) (src : HostPath) : Prop :=
  (packFile (stdFs r fs src) (cliPolicy t.early) faults t.fuel).2.buf = []

/-- What a successful `pack` of a directory did. -/
theorem cmdPack_dir_ok {t : Tool} {read : HostFs → HostPath → SourceFs} {faults : Faults} {cwd : HostPath}
    {fs st : HostFs} {src : HostPath} {dst : Option HostPath} (hdir : fs src = some .dir)
    (h : (cmdPack t read faults cwd fs src dst).2 = .ok st) :
    ∃ out b, (∀ d, dst = some d → out = d) ∧ ¬ src <+: out ∧
      packFile (read fs src) (cliPolicy t.early) faults t.fuel = (.ok (), b) ∧
      st out = some (.file b.img) ∧ ∀ q, q ≠ out → st q = fs q := by
  unfold cmdPack at h
  rw [hdir] at h
  simp only [if_true] at h
  have key : ∀ d, (packPathDir t (read fs src) faults fs src d).2 = .ok st → ¬ src <+: d ∧
      ∃ b, packFile (read fs src) (cliPolicy t.early) faults t.fuel = (.ok (), b) ∧
      st d = some (.file b.img) ∧ ∀ q, q ≠ d → st q = fs q := by
    intro d h
    obtain ⟨h1, h2⟩ := packPathDir_seen (.inr h)
    refine ⟨h1, ?_⟩
    unfold packPathDir at h
    cases hp : packOpen fs src d with
    | ok fs1 =>
      rw [hp] at h
      simp only at h
      rcases hc : packFile (read fs src) (cliPolicy t.early) faults t.fuel with ⟨res, b⟩
      rw [hc] at h
      cases res with
      | ok u =>
        cases u
        simp only [Res.ok.injEq] at h
        exact ⟨b, rfl, by rw [← h]; simp [HostFs.set], h2⟩
      | err e => cases h
      | panic => cases h
      | hang => cases h
    | err e => rw [hp] at h; cases h
    | panic => rw [hp] at h; cases h
    | hang => rw [hp] at h; cases h
  cases dst with
  | some d =>
    obtain ⟨h0, b, h1, h2, h3⟩ := key d h
    exact ⟨d, b, fun d' hd' => (Option.some.inj hd'), h0, h1, h2, h3⟩
  | none =>
    cases hd : defaultImagePath cwd fs src (decide True) with
    | ok d =>
      simp only [hd] at h
      obtain ⟨h0, b, h1, h2, h3⟩ := key d h
      exact ⟨d, b, nofun, h0, h1, h2, h3⟩
    | err e => simp only [hd] at h; cases h
    | panic => simp only [hd] at h; cases h
    | hang => simp only [hd] at h; cases h

/-! ## C77: packing a directory and unpacking the image restores the directory -/

/-- C56, from a file of the host: copying a range delivers exactly the bytes of the file in this range, up to the end of
the file, and returns how many. -/
theorem C56_host_copy {r : DirReader} (hs : ∀ b, (r.split b).flatten = b) {fs : HostFs} {src : HostPath} {p : Path}
    {data : Bytes} (hf : fs (src ++ p) = some (.file data)) (off size : Nat) :
    ∃ chunks, (stdFs r fs src).copy p off size = (chunks, .ok (min size (data.length - off))) ∧
      chunks.flatten.length = min size (data.length - off) ∧
      ∀ i, i < min size (data.length - off) → chunks.flatten[i]? = data[off + i]? := by
  refine ⟨r.split ((data.drop off).take size), ?_, ?_, fun i hi => ?_⟩
  · show stdCopy r fs src p off size = _
    unfold stdCopy
    rw [hf]
    simp
  · rw [hs]; simp
  · rw [hs, List.getElem?_take_of_lt (by omega), List.getElem?_drop]

example : (fun q => if q = [['s'], ['f']] then some (.file [1, 2, 3]) else none : HostFs) ([['s']] ++ [['f']]) =
    some (.file [1, 2, 3]) := rfl

/-- C77: whenever `pack` reports success for a directory of the host and its output was flushed when it was closed, the
output is a file, and `unpack` of that file into any fresh place succeeds and creates there exactly what is in the
directory: the same directories, the same files with the same bytes, and nothing else.  Whatever the order in which the
host lists directories, and however it cuts what is copied. -/
theorem C77_pack_unpack_identity (t : Tool) {r : DirReader} {faults : Faults} {cwd : HostPath} {fs st : HostFs}
    {src : HostPath} {dst : Option HostPath} (hr : ReadsHost r fs) (hw : WellFormedHost fs) (hn : ProperNames fs)
    (hdir : fs src = some .dir)
    (hpack : (cmdPack t (stdFs r) faults cwd fs src dst).2 = .ok st) (hclose : DirClosesCleanly t r faults fs src) :
    ∃ out img, (∀ d, dst = some d → out = d) ∧ IsFile st out img ∧ (∀ q, q ≠ out → st q = fs q) ∧
      ∀ (h : Host) (dest : Str) (clones : Bool), (∀ p, h.faults p = .none) → FreshDest h dest st →
        ∃ n st', (∀ fuel, n < fuel → cmdUnpack h img clones dest fuel st = (.ok (), st')) ∧
          SameBelow st' (placeOf h dest) fs src ∧ ChangesOnlyInside h dest st st' := by
  obtain ⟨out, b, h1, _, h2, h3, h4⟩ := cmdPack_dir_ok hdir hpack
  have hbuf : b.buf = [] := by unfold DirClosesCleanly at hclose; rw [h2] at hclose; exact hclose
  obtain ⟨⟨s', g1, g2⟩, _, _⟩ := C63_complete_partial h2 hbuf
  have hb := std_bounded (fs := fs) (root := src) hr.2.1
  have hf := std_faithful (fs := fs) (root := src) hr.2.1
  obtain ⟨M, Loc, l0, hP⟩ := pack_packed hb hf g1
  refine ⟨out, b.img, h1, h3, h4, fun h dest clones hh hfresh => ?_⟩
  have hnames : ∀ p e, EntryIn (stdFs r fs src).readDir p e → HostName e.name := by
    intro p e he
    refine hn (src ++ p) e.name ?_
    rw [List.append_assoc]
    rcases std_entry_host he with ⟨_, h⟩ | ⟨_, d, h, _⟩ <;> rw [h] <;> nofun
  obtain ⟨n, st', k1, k2, k3⟩ := C45_unpack_restores hb hf g1 hnames h hh dest st hfresh clones
  rw [g2] at k1
  exact ⟨n, st', k1, treeAt_same hr hw hP.listable k2, k3⟩

/-! ## C78: what cannot be stored is not left out -/

/-- C78: `pack` of a directory does not report success if anywhere in the directory there is something that is neither
a file nor a directory (such as a symbolic link), or whose name is not Unicode. -/
theorem C78_special_refused (t : Tool) {r : DirReader} {faults : Faults} {cwd : HostPath} {fs : HostFs}
    {src : HostPath} (dst : Option HostPath) (hr : ReadsHost r fs) (hw : WellFormedHost fs)
    (hdir : fs src = some .dir) {d : Path} {c : Str} (hd : fs (src ++ d) = some .dir)
    (hs : r.special (src ++ d ++ [c]) = true) (st : HostFs) :
    (cmdPack t (stdFs r) faults cwd fs src dst).2 ≠ .ok st := by
  intro hpack
  obtain ⟨out, b, _, _, h2, _, _⟩ := cmdPack_dir_ok hdir hpack
  obtain ⟨s1, hc, _⟩ := packFile_eq h2
  have hS := shape_of_success hc
  obtain ⟨D, M, rootW, rootSize, next, recs, n', hS⟩ := hS
  have hL : Listable (stdFs r fs src).readDir := by
    intro p hp
    obtain ⟨x, hx, rfl⟩ := List.mem_map.1 ((hS.walked.mem_iff p).2 hp)
    exact ⟨_, hS.walked.readDir (p := x.1) (l := x.2) hx⟩
  have hD : DirOf (stdFs r fs src).readDir d := by
    by_cases hne : d = []
    · subst hne; exact .root
    · obtain ⟨p, e, he, rfl⟩ := std_host_entry hr hw hL _ rfl hne (by rw [hd]; nofun)
      rcases std_entry_host he with ⟨h, _⟩ | ⟨_, data, h, _⟩
      · exact .sub he.1 he.2.choose_spec.1 he.2.choose_spec.2 h
      · rw [hd] at h; cases h
  obtain ⟨l, hl⟩ := hL d hD
  obtain ⟨_, h5, h6⟩ := stdReadDir_ok hl
  have hc : c ∈ r.names (src ++ d) := ((hr.1 _).2 c).2 (.inr hs)
  rw [← h5] at hc
  obtain ⟨e, he, rfl⟩ := List.mem_map.1 hc
  have := (stdEntry_ok (h6 e he)).2.1
  rw [hs] at this
  cases this

/-! ## C79: the same directory packs to the same image -/

theorem std_same {r r' : DirReader} {fs : HostFs} {src : HostPath} (hr : ReadsHost r fs) (hr' : ReadsHost r' fs)
    (hw : WellFormedHost fs) (hL : Listable (stdFs r fs src).readDir) (hL' : Listable (stdFs r' fs src).readDir) :
    SameSource (stdFs r fs src).readDir (stdFs r' fs src).readDir (stdContent fs src) (stdContent fs src) := by
  have key : ∀ {r r' : DirReader}, ReadsHost r' fs → Listable (stdFs r' fs src).readDir →
      ∀ p name isDir, (∃ e, EntryIn (stdFs r fs src).readDir p e ∧ e.name = name ∧ e.isDir = isDir) →
      ∃ e, EntryIn (stdFs r' fs src).readDir p e ∧ e.name = name ∧ e.isDir = isDir := by
    rintro r r' hr' hL' p name isDir ⟨e, he, rfl, rfl⟩
    have hn : fs (src ++ (p ++ [e.name])) ≠ none := by
      rcases std_entry_host he with ⟨_, h⟩ | ⟨_, d, h, _⟩ <;> rw [h] <;> nofun
    obtain ⟨p', e', he', heq⟩ := std_host_entry hr' hw hL' _ rfl (by simp) hn
    obtain ⟨rfl, h2⟩ := List.append_inj' heq rfl
    have h2 : e.name = e'.name := by simpa using h2
    refine ⟨e', he', h2.symm, ?_⟩
    have h1 := std_entry_host he
    have h1' := std_entry_host he'
    rw [← h2] at h1'
    rcases h1 with ⟨a, b⟩ | ⟨a, d, b, _⟩ <;> rcases h1' with ⟨a', b'⟩ | ⟨a', d', b', _⟩ <;> rw [a, a'] <;>
      (rw [b] at b'; cases b')
  exact ⟨fun p name isDir => ⟨key hr' hL' p name isDir, key hr hL p name isDir⟩, fun _ _ _ _ => rfl⟩

/-- C79 (partial: the contents).  Missing: equal bytes, which is false, see `C79_reproducible_false`.  Two packs of the
same directory, whatever the order in which the host lists directories, give images with the same checksum, for every
hash function. -/
theorem C79_reproducible_partial {H : Type} (hash : Bytes → H) (t t' : Tool) {r r' : DirReader} {faults faults' : Faults}
    {cwd cwd' : HostPath} {fs st st' : HostFs} {src : HostPath} {dst dst' : Option HostPath} (hr : ReadsHost r fs)
    (hr' : ReadsHost r' fs) (hw : WellFormedHost fs) (hn : ProperNames fs) (hdir : fs src = some .dir)
    (h : (cmdPack t (stdFs r) faults cwd fs src dst).2 = .ok st) (hc : DirClosesCleanly t r faults fs src)
    (h' : (cmdPack t' (stdFs r') faults' cwd' fs src dst').2 = .ok st') (hc' : DirClosesCleanly t' r' faults' fs src) :
    ∃ out out' img img', (∀ d, dst = some d → out = d) ∧ (∀ d, dst' = some d → out' = d) ∧ IsFile st out img ∧
      IsFile st' out' img' ∧
      ∃ vol vol' n c, readVolume (fileDev img) = .ok vol ∧ readVolume (fileDev img') = .ok vol' ∧
        ∀ k, n < k → checksum hash (fileDev img) vol k = .ok c ∧ checksum hash (fileDev img') vol' k = .ok c := by
  obtain ⟨out, b, o1, _, h2, h3, _⟩ := cmdPack_dir_ok hdir h
  obtain ⟨out', b', o1', _, h2', h3', _⟩ := cmdPack_dir_ok hdir h'
  have hbuf : b.buf = [] := by unfold DirClosesCleanly at hc; rw [h2] at hc; exact hc
  have hbuf' : b'.buf = [] := by unfold DirClosesCleanly at hc'; rw [h2'] at hc'; exact hc'
  obtain ⟨⟨s, g1, g2⟩, _, _⟩ := C63_complete_partial h2 hbuf
  obtain ⟨⟨s', g1', g2'⟩, _, _⟩ := C63_complete_partial h2' hbuf'
  have hb := std_bounded (fs := fs) (root := src) hr.2.1
  have hf := std_faithful (fs := fs) (root := src) hr.2.1
  have hb' := std_bounded (fs := fs) (root := src) hr'.2.1
  have hf' := std_faithful (fs := fs) (root := src) hr'.2.1
  obtain ⟨_, _, _, hP⟩ := pack_packed hb hf g1
  obtain ⟨_, _, _, hP'⟩ := pack_packed hb' hf' g1'
  have := C47_checksum_packed hash hb hf hb' hf' g1 g1' (std_same hr hr' hw hP.listable hP'.listable) (by
    intro p e he
    refine (hn (src ++ p) e.name ?_).2.1
    rw [List.append_assoc]
    rcases std_entry_host he with ⟨_, h⟩ | ⟨_, d, h, _⟩ <;> rw [h] <;> nofun)
  rw [g2, g2'] at this
  exact ⟨out, out', b.img, b'.img, o1, o1', h3, h3', this⟩

/-- The names of the entries of a table, in the order in which they are stored. -/
theorem reprLoop_names (offsets : List Nat) : ∀ (nodes : List (AvlNode DirData)) (idx next : Nat) (bytes : Bytes)
    (listing : List Listing) {res : Bytes × List Listing × Nat},
    TabWriter.reprLoop offsets nodes idx next bytes listing = .ok res →
    res.2.1.map Listing.name = listing.map Listing.name ++ nodes.map (fun n => n.data.name) := by
  intro nodes
  induction nodes with
  | nil => intro idx next bytes listing res h; cases h; simp
  | cons n ns ih =>
    intro idx next bytes listing res h
    simp only [TabWriter.reprLoop] at h
    obtain ⟨_, _, h⟩ := Res.bind_eq_ok.1 h
    obtain ⟨_, _, h⟩ := Res.bind_eq_ok.1 h
    obtain ⟨_, _, h⟩ := Res.bind_eq_ok.1 h
    obtain ⟨_, _, h⟩ := Res.bind_eq_ok.1 h
    obtain ⟨_, _, h⟩ := Res.bind_eq_ok.1 h
    obtain ⟨_, _, h⟩ := Res.bind_eq_ok.1 h
    have := ih _ _ _ _ h
    rw [this]
    simp

theorem diskRepr_names {w : TabWriter} {n n' : Nat} {r : DiskRepr} {t : Avl DirData}
    (hne : w.table.tree ≠ []) (ht : w.table.reorder = .ok t) (h : w.diskRepr n = .ok (r, n')) :
    r.fileListing.map Listing.name = t.tree.map (fun n => n.data.name) ∨ t.tree = [] := by
  unfold TabWriter.diskRepr at h
  rw [if_neg hne, ht] at h
  simp only [Res.ok_bind] at h
  obtain ⟨lens, h1, h⟩ := Res.bind_eq_ok.1 h
  split at h
  · next hl =>
    right
    subst hl
    cases htr : t.tree with
    | nil => rfl
    | cons a as =>
      rw [htr] at h1
      simp only [TabWriter.lensOnDisk] at h1
      obtain ⟨_, _, h1⟩ := Res.bind_eq_ok.1 h1
      obtain ⟨_, _, h1⟩ := Res.bind_eq_ok.1 h1
      cases h1
  · left
    obtain ⟨offs, _, h⟩ := Res.bind_eq_ok.1 h
    obtain ⟨res, h2, h⟩ := Res.bind_eq_ok.1 h
    have := reprLoop_names _ _ _ _ _ _ h2
    obtain ⟨_, _, h⟩ := Res.bind_eq_ok.1 h
    obtain ⟨_, _, h⟩ := Res.bind_eq_ok.1 h
    cases h
    simpa using this

/-- A directory of the host whose tree can be stored packs through the tool's buffer, if nothing fails. -/
theorem std_packs {r : DirReader} {fs : HostFs} {src : HostPath} {tree : List (Path × List FileEntry)}
    (hL : Listable (stdFs r fs src).readDir) (ht : TreeOf (stdFs r fs src).readDir tree) (hF : Fits tree)
    (hS : ∀ x ∈ tree, StorableListing x.2) (hK : ∀ x ∈ tree, FewEntries x.2) {fuel : Nat} (hf : tree.length ≤ fuel)
    (pol : BufPolicy) : ∃ b, packFile (stdFs r fs src) pol (fun _ => none) fuel = (.ok (), b) ∧ b.buf = [] := by
  have h1 := C33_representable_tree_packs_few (fileEnv (stdFs r fs src) (fun _ => none)) hL ht hF hS hK
    (fileEnv_works (by
      intro p e he hd
      rcases std_entry_host he with ⟨h, _⟩ | ⟨_, data, h, _⟩
      · rw [hd] at h; cases h
      · refine ⟨((data.drop 0).take e.len).length, ?_⟩
        show (stdCopy r fs src (p ++ [e.name]) 0 e.len).2 = _
        unfold stdCopy
        rw [h])) hf ⟨⟨[], []⟩, []⟩
  obtain ⟨h2, h3⟩ := C63_buffer_unnoticed (stdFs r fs src) pol fuel
  rw [h1] at h2
  exact ⟨_, Prod.ext h2 rfl, h3⟩

/-- `pack` of a directory into a new file beside it succeeds if the directory packs. -/
theorem cmdPack_succeeds {t : Tool} {r : DirReader} {fs : HostFs} {src out cwd : HostPath} (hdir : fs src = some .dir)
    (hnew : fs out = none) (hpar : fs out.dropLast = some .dir) (hin : ¬ src <+: out) {b : BufFile}
    (hb : packFile (stdFs r fs src) (cliPolicy t.early) (fun _ => none) t.fuel = (.ok (), b)) :
    ∃ st, (cmdPack t (stdFs r) (fun _ => none) cwd fs src (some out)).2 = .ok st ∧ st out = some (.file b.img) ∧
      ∀ q, q ≠ out → st q = fs q := by
  have ho : packOpen fs src out = .ok (fs.set out (.file [])) := by
    unfold packOpen
    rw [hdir]
    simp only [hnew, Option.isSome_none, Bool.false_eq_true, false_and, if_false, reduceCtorEq, hpar, ne_eq,
      not_true_eq_false, or_self]
    rw [if_neg (by simpa using hin)]
  refine ⟨(fs.set out (.file [])).set out (.file b.img), ?_, by simp [HostFs.set], fun q hq => by simp [HostFs.set, hq]⟩
  unfold cmdPack
  rw [hdir]
  simp only [if_true]
  unfold packPathDir
  rw [ho]
  simp only [hb]

/-- A host with a directory `/s` that holds two files of one byte. -/
def pairHost : HostFs := fun q =>
  if q = [] ∨ q = [['s']] then some .dir
  else if q = [['s'], ['a']] then some (.file [1])
  else if q = [['s'], ['b']] then some (.file [2])
  else none

/-- Two orders in which the host may list `/s`. -/
def pairReader (names : List Str) : DirReader where
  names := fun d => if d = [] then [['s']] else if d = [['s']] then names else []
  dirLen := fun _ => 4096
  special := fun _ => false
  split := fun b => [b]

theorem pair_wellFormed : WellFormedHost pairHost := by
  refine ⟨by decide, fun q c h => ?_⟩
  have key : ∀ x : HostPath, pairHost x ≠ none → x = [] ∨ x = [['s']] ∨ x = [['s'], ['a']] ∨ x = [['s'], ['b']] := by
    intro x hx
    unfold pairHost at hx
    split at hx
    · rename_i h1; rcases h1 with h1 | h1 <;> simp [h1]
    · split at hx
      · rename_i h1; simp [h1]
      · split at hx
        · rename_i h1; simp [h1]
        · exact absurd rfl hx
  rcases key _ h with h | h | h | h
  · simp at h
  · rw [show ([['s']] : HostPath) = [] ++ [['s']] from rfl] at h
    obtain ⟨rfl, _⟩ := List.append_inj' h rfl
    decide
  · rw [show ([['s'], ['a']] : HostPath) = [['s']] ++ [['a']] from rfl] at h
    obtain ⟨rfl, _⟩ := List.append_inj' h rfl
    decide
  · rw [show ([['s'], ['b']] : HostPath) = [['s']] ++ [['b']] from rfl] at h
    obtain ⟨rfl, _⟩ := List.append_inj' h rfl
    decide

theorem pair_names (d : HostPath) (n : Str) : pairHost (d ++ [n]) ≠ none ↔
    (d = [] ∧ n = ['s']) ∨ (d = [['s']] ∧ (n = ['a'] ∨ n = ['b'])) := by
  constructor
  · intro h
    have key : ∀ x : HostPath, pairHost x ≠ none → x = [] ∨ x = [['s']] ∨ x = [['s'], ['a']] ∨ x = [['s'], ['b']] := by
      intro x hx
      unfold pairHost at hx
      split at hx
      · rename_i h1; rcases h1 with h1 | h1 <;> simp [h1]
      · split at hx
        · rename_i h1; simp [h1]
        · split at hx
          · rename_i h1; simp [h1]
          · exact absurd rfl hx
    rcases key _ h with h | h | h | h
    · simp at h
    · rw [show ([['s']] : HostPath) = [] ++ [['s']] from rfl] at h
      obtain ⟨rfl, h⟩ := List.append_inj' h rfl
      exact .inl ⟨rfl, by simpa using h⟩
    · rw [show ([['s'], ['a']] : HostPath) = [['s']] ++ [['a']] from rfl] at h
      obtain ⟨rfl, h⟩ := List.append_inj' h rfl
      exact .inr ⟨rfl, .inl (by simpa using h)⟩
    · rw [show ([['s'], ['b']] : HostPath) = [['s']] ++ [['b']] from rfl] at h
      obtain ⟨rfl, h⟩ := List.append_inj' h rfl
      exact .inr ⟨rfl, .inr (by simpa using h)⟩
  · rintro (⟨rfl, rfl⟩ | ⟨rfl, rfl | rfl⟩) <;> decide

theorem pair_properNames : ProperNames pairHost := by
  intro q c h
  rcases (pair_names q c).1 h with ⟨_, rfl⟩ | ⟨_, rfl | rfl⟩ <;> (unfold HostName; decide)

theorem pair_reads {names : List Str} (hn : names = [['a'], ['b']] ∨ names = [['b'], ['a']]) :
    ReadsHost (pairReader names) pairHost := by
  refine ⟨fun d => ⟨?_, fun n => ?_⟩, fun b => by simp [pairReader], nofun⟩
  · simp only [pairReader]
    split
    · simp
    · split
      · rcases hn with rfl | rfl <;> decide
      · simp
  · rw [pair_names]
    simp only [pairReader, Bool.false_eq_true, or_false]
    split
    · rename_i h; subst h; simp
    · split
      · rename_i h; subst h; rcases hn with rfl | rfl <;> simp [or_comm]
      · rename_i h1 h2; simp [h1, h2]

def pairFiles (swap : Bool) : List (Str × Bytes) :=
  if swap then [(['b'], [2]), (['a'], [1])] else [(['a'], [1]), (['b'], [2])]

theorem pair_ok (swap : Bool) : FlatOk (pairFiles swap) := by
  cases swap <;> exact ascii_flatOk (by unfold DistinctNames; decide) (by decide) (by decide) (by decide)

theorem pair_readDir (swap : Bool) :
    (stdFs (pairReader ((pairFiles swap).map Prod.fst)) pairHost [['s']]).readDir = (flatFs (pairFiles swap)).readDir := by
  funext p
  by_cases hp : p = []
  · subst hp; cases swap <;> rfl
  · have h1 : (flatFs (pairFiles swap)).readDir p = .err .io := by simp only [flatFs, if_neg hp]
    rw [h1]
    show stdReadDir _ pairHost [['s']] p = .err .io
    unfold stdReadDir
    split
    · next h =>
      exfalso
      cases p with
      | nil => exact hp rfl
      | cons c cs =>
        unfold pairHost at h
        split at h
        · rename_i h1; simp at h1
        · split at h
          · cases h
          · split at h <;> cases h
    · rfl

theorem pair_packs (swap : Bool) (pol : BufPolicy) :
    ∃ b, packFile (stdFs (pairReader ((pairFiles swap).map Prod.fst)) pairHost [['s']]) pol (fun _ => none) 1 = (.ok (), b) ∧
      b.buf = [] := by
  refine std_packs ?_ (tree := flatTree (pairFiles swap)) ?_ (flat_fits (pair_ok swap)) (flat_storable (pair_ok swap))
    (flat_few (pair_ok swap)) (by simp [flatTree]) pol
  · rw [pair_readDir]; exact flat_listable _
  · rw [pair_readDir]; exact flat_tree _

theorem pair_scan {swap : Bool} {b : BufFile} {pol : BufPolicy}
    (h : packFile (stdFs (pairReader ((pairFiles swap).map Prod.fst)) pairHost [['s']]) pol (fun _ => none) 1 = (.ok (), b))
    (hbuf : b.buf = []) : ∃ vol ss, readVolume (fileDev b.img) = .ok vol ∧ scanAll (fileDev b.img) vol.root 3 = .ok ss ∧
      ss.map DirEnt.nameStr = (pairFiles swap).map Prod.fst := by
  obtain ⟨⟨s', g1, g2⟩, _, _⟩ := C63_complete_partial h hbuf
  have hr : ∀ b, ((pairReader ((pairFiles swap).map Prod.fst)).split b).flatten = b := by simp [pairReader]
  obtain ⟨M, Loc, l0, hP⟩ := pack_packed (std_bounded (fs := pairHost) (root := [['s']]) hr) (std_faithful hr) g1
  rw [g2] at hP
  obtain ⟨_, lst, w, r, n, n', h1, h2, h3, h4, h5, h6⟩ := hP.image.dirs [] l0 hP.root hP.rootDir
  rw [pair_readDir] at h1
  obtain ⟨ds, ss, _, k2, _, k4⟩ := C25_scan_agrees h3 h4 h5
  have hl : lst = (pairFiles swap).map (fun x => ⟨x.1, false, x.2.length⟩) := by
    simp only [flatFs, if_true, Res.ok.injEq] at h1; exact h1.symm
  subst hl
  have hn : r.fileListing.map Listing.name = (pairFiles swap).map Prod.fst := by
    have hi : ((pairFiles swap).map (fun x => (⟨x.1, false, x.2.length⟩ : FileEntry))).map (itemOf M []) =
        (pairFiles swap).map (fun x => (⟨x.1, false, UInt32.ofNat x.2.length⟩ : Item)) := by
      rw [List.map_map]; rfl
    rw [hi] at h3
    cases swap with
    | false =>
      have e : ∃ w', buildTable ((pairFiles false).map (fun x => (⟨x.1, false, UInt32.ofNat x.2.length⟩ : Item))) = .ok w' ∧
          w'.table.tree ≠ [] ∧ ∃ t, w'.table.reorder = .ok t ∧
          t.tree.map (fun n => n.data.name) = (pairFiles false).map Prod.fst := by
        refine ⟨_, rfl, by decide, _, rfl, by decide⟩
      obtain ⟨w', e1, e2, t, e3, e4⟩ := e
      rw [h3] at e1; cases e1
      rcases diskRepr_names e2 e3 h4 with h | h
      · rw [h, e4]
      · rw [h] at e4; cases e4
    | true =>
      have e : ∃ w', buildTable ((pairFiles true).map (fun x => (⟨x.1, false, UInt32.ofNat x.2.length⟩ : Item))) = .ok w' ∧
          w'.table.tree ≠ [] ∧ ∃ t, w'.table.reorder = .ok t ∧
          t.tree.map (fun n => n.data.name) = (pairFiles true).map Prod.fst := by
        refine ⟨_, rfl, by decide, _, rfl, by decide⟩
      obtain ⟨w', e1, e2, t, e3, e4⟩ := e
      rw [h3] at e1; cases e1
      rcases diskRepr_names e2 e3 h4 with h | h
      · rw [h, e4]
      · rw [h] at e4; cases e4
  refine ⟨_, ss, hP.volume, k2 3 ?_, ?_⟩
  · simp only [List.length_map]; cases swap <;> decide
  · rw [← hn, ← k4, List.map_map]; rfl

/-- C79 is false: two packs of the same directory, with two files, give different images if the host lists the
directory in different orders. -/
theorem C79_reproducible_false : ∃ (t : Tool) (r r' : DirReader) (fs st st' : HostFs) (src out : HostPath) (img img' : Bytes),
    ReadsHost r fs ∧ ReadsHost r' fs ∧ WellFormedHost fs ∧ ProperNames fs ∧ fs src = some .dir ∧
    (cmdPack t (stdFs r) (fun _ => none) [] fs src (some out)).2 = .ok st ∧
    (cmdPack t (stdFs r') (fun _ => none) [] fs src (some out)).2 = .ok st' ∧
    IsFile st out img ∧ IsFile st' out img' ∧ img ≠ img' := by
  obtain ⟨b, h1, h2⟩ := pair_packs false (cliPolicy (fun _ _ => false))
  obtain ⟨b', h1', h2'⟩ := pair_packs true (cliPolicy (fun _ _ => false))
  obtain ⟨st, c1, c2, _⟩ := cmdPack_succeeds (t := ⟨fun _ _ => false, fun b => [b], 3, 1⟩) (cwd := []) (out := [['o']])
    (by decide) (by decide) (by decide) (by decide) h1
  obtain ⟨st', c1', c2', _⟩ := cmdPack_succeeds (t := ⟨fun _ _ => false, fun b => [b], 3, 1⟩) (cwd := []) (out := [['o']])
    (by decide) (by decide) (by decide) (by decide) h1'
  refine ⟨_, _, _, pairHost, st, st', [['s']], [['o']], b.img, b'.img, pair_reads (.inl rfl), pair_reads (.inr rfl),
    pair_wellFormed, pair_properNames, by decide, c1, c1', c2, c2', ?_⟩
  intro he
  obtain ⟨vol, ss, k1, k2, k3⟩ := pair_scan h1 h2
  obtain ⟨vol', ss', k1', k2', k3'⟩ := pair_scan h1' h2'
  rw [← he, k1] at k1'
  cases k1'
  rw [← he, k2] at k2'
  cases k2'
  rw [k3] at k3'
  cases k3'

/-! ## Concrete cases -/

/-- A host with a working directory `/w`, an empty directory `/w/out`, and a directory `/s` that holds a directory `A`
with one file, and a file `b.txt`. -/
def treeHost : HostFs := fun q =>
  if q = [] ∨ q = [['w']] ∨ q = [['w'], ['o', 'u', 't']] ∨ q = [['s']] ∨ q = [['s'], ['A']] then some .dir
  else if q = [['s'], ['A'], ['c']] then some (.file [1, 2, 3])
  else if q = [['s'], ['b', '.', 't', 'x', 't']] then some (.file [4, 5, 6, 7, 8])
  else none

/-- All that exists on it, as directory and name. -/
def treePlaces : List (HostPath × Str) :=
  [([], ['w']), ([], ['s']), ([['w']], ['o', 'u', 't']), ([['s']], ['A']), ([['s']], ['b', '.', 't', 'x', 't']),
    ([['s'], ['A']], ['c'])]

def treeReader : DirReader where
  names := fun d => (treePlaces.filter (fun x => x.1 = d)).map Prod.snd
  dirLen := fun _ => 0
  special := fun _ => false
  split := fun b => [b]

theorem tree_places (q : HostPath) (c : Str) : treeHost (q ++ [c]) ≠ none ↔ (q, c) ∈ treePlaces := by
  constructor
  · intro h
    have key : ∀ x : HostPath, treeHost x ≠ none → x = [] ∨ ∃ y ∈ treePlaces, x = y.1 ++ [y.2] := by
      intro x hx
      unfold treeHost at hx
      split at hx
      · rename_i h1
        rcases h1 with rfl | rfl | rfl | rfl | rfl
        · exact .inl rfl
        · exact .inr ⟨([], ['w']), by decide, rfl⟩
        · exact .inr ⟨([['w']], ['o', 'u', 't']), by decide, rfl⟩
        · exact .inr ⟨([], ['s']), by decide, rfl⟩
        · exact .inr ⟨([['s']], ['A']), by decide, rfl⟩
      · split at hx
        · rename_i h1; subst h1; exact .inr ⟨([['s'], ['A']], ['c']), by decide, rfl⟩
        · split at hx
          · rename_i h1; subst h1; exact .inr ⟨([['s']], ['b', '.', 't', 'x', 't']), by decide, rfl⟩
          · exact absurd rfl hx
    rcases key _ h with h | ⟨y, hy, h⟩
    · simp at h
    · obtain ⟨h1, h2⟩ := List.append_inj' h rfl
      have h2 : c = y.2 := by simpa using h2
      rw [h1, h2]; exact hy
  · intro h
    simp only [treePlaces, List.mem_cons, Prod.mk.injEq, List.not_mem_nil, or_false] at h
    rcases h with ⟨rfl, rfl⟩ | ⟨rfl, rfl⟩ | ⟨rfl, rfl⟩ | ⟨rfl, rfl⟩ | ⟨rfl, rfl⟩ | ⟨rfl, rfl⟩ <;> decide

theorem tree_wellFormed : WellFormedHost treeHost := by
  refine ⟨by decide, fun q c h => ?_⟩
  have h := (tree_places q c).1 h
  simp only [treePlaces, List.mem_cons, Prod.mk.injEq, List.not_mem_nil, or_false] at h
  rcases h with ⟨rfl, rfl⟩ | ⟨rfl, rfl⟩ | ⟨rfl, rfl⟩ | ⟨rfl, rfl⟩ | ⟨rfl, rfl⟩ | ⟨rfl, rfl⟩ <;> decide

theorem tree_properNames : ProperNames treeHost := by
  intro q c h
  have h := (tree_places q c).1 h
  simp only [treePlaces, List.mem_cons, Prod.mk.injEq, List.not_mem_nil, or_false] at h
  rcases h with ⟨rfl, rfl⟩ | ⟨rfl, rfl⟩ | ⟨rfl, rfl⟩ | ⟨rfl, rfl⟩ | ⟨rfl, rfl⟩ | ⟨rfl, rfl⟩ <;> (unfold HostName; decide)

theorem tree_reads : ReadsHost treeReader treeHost := by
  refine ⟨fun d => ⟨?_, fun n => ?_⟩, fun b => by simp [treeReader], nofun⟩
  · have h0 : treePlaces.Nodup := by decide
    have h1 : (treePlaces.filter (fun x => decide (x.1 = d))).Nodup := h0.filter _
    show ((treePlaces.filter (fun x => decide (x.1 = d))).map Prod.snd).Nodup
    rw [List.Nodup, List.pairwise_map]
    refine List.Pairwise.imp_of_mem ?_ h1
    intro a b ha hb hne he
    have e1 : a.1 = d := by simpa using (List.mem_filter.1 ha).2
    have e2 : b.1 = d := by simpa using (List.mem_filter.1 hb).2
    exact hne (Prod.ext (e1.trans e2.symm) he)
  · rw [tree_places]
    simp only [treeReader, List.mem_map, List.mem_filter, decide_eq_true_eq, Bool.false_eq_true, or_false]
    constructor
    · rintro ⟨x, ⟨h1, h2⟩, rfl⟩; rw [← h2]; exact h1
    · intro h; exact ⟨(d, n), ⟨h, rfl⟩, rfl⟩

theorem tree_readDir : (stdFs treeReader treeHost [['s']]).readDir = sampleFs.readDir := by
  funext p
  by_cases h1 : p = []
  · subst h1; decide
  · by_cases h2 : p = [['A']]
    · subst h2; decide
    · have : sampleFs.readDir p = .err .io := by simp [sampleFs, h1, h2]
      rw [this]
      show stdReadDir _ treeHost [['s']] p = .err .io
      unfold stdReadDir
      split
      · next h =>
        exfalso
        unfold treeHost at h
        split at h
        · rename_i h3
          rcases h3 with h3 | h3 | h3 | h3 | h3 <;> simp at h3
          · exact h1 h3
          · exact h2 h3
        · split at h
          · cases h
          · split at h <;> cases h
      · rfl

theorem tree_packs (pol : BufPolicy) :
    ∃ b, packFile (stdFs treeReader treeHost [['s']]) pol (fun _ => none) 2 = (.ok (), b) ∧ b.buf = [] := by
  refine std_packs ?_ (tree := sampleTree) ?_ sample_fits sample_storable sample_few (by decide) pol
  · rw [tree_readDir]; exact sample_listable
  · rw [tree_readDir]; exact sample_tree

/-- The hypotheses of C77 hold: `/s` packs to `/w/x`, and unpacking that into `/w/out` restores the file in the
subdirectory. -/
example (clones : Bool) : ∃ st img n st',
    (cmdPack sampleTool (stdFs treeReader) (fun _ => none) [['w']] treeHost [['s']] (some [['w'], ['x']])).2 = .ok st ∧
    IsFile st [['w'], ['x']] img ∧
    (∀ fuel, n < fuel → cmdUnpack sampleHost img clones ['o', 'u', 't'] fuel st = (.ok (), st')) ∧
    st' [['w'], ['o', 'u', 't'], ['A'], ['c']] = some (.file [1, 2, 3]) := by
  obtain ⟨b, h1, h2⟩ := tree_packs (cliPolicy sampleTool.early)
  obtain ⟨st, c1, c2, c3⟩ := cmdPack_succeeds (t := sampleTool) (cwd := [['w']]) (out := [['w'], ['x']])
    (by decide) (by decide) (by decide) (by decide) h1
  have hclose : DirClosesCleanly sampleTool treeReader (fun _ => none) treeHost [['s']] := by
    unfold DirClosesCleanly
    have h1' : packFile (stdFs treeReader treeHost [['s']]) (cliPolicy sampleTool.early) (fun _ => none) sampleTool.fuel =
      (.ok (), b) := h1
    rw [h1']; exact h2
  obtain ⟨out, img, o1, o2, o3, o4⟩ := C77_pack_unpack_identity sampleTool tree_reads tree_wellFormed tree_properNames
    (by decide) c1 hclose
  have ho := o1 _ rfl
  subst ho
  have hp : placeOf sampleHost ['o', 'u', 't'] = [['w'], ['o', 'u', 't']] := by decide
  have hfresh : FreshDest sampleHost ['o', 'u', 't'] st := by
    refine ⟨by decide, by decide, by rw [o3 _ (by decide)]; decide, ?_, ?_⟩
    · rintro q ⟨k, rfl⟩
      right
      match k with
      | 0 => rw [o3 _ (by decide)]; decide
      | k + 1 =>
        have : (hostComps ['o', 'u', 't']).take (k + 1) = [['o', 'u', 't']] := by
          rw [show hostComps ['o', 'u', 't'] = [['o', 'u', 't']] by decide]; simp
        rw [this, o3 _ (by decide)]; decide
    · rintro q ⟨t, rfl⟩ hne
      rw [hp] at hne ⊢
      cases t with
      | nil => exact absurd rfl hne
      | cons c cs => rw [o3 _ (by simp)]; simp [treeHost]
  obtain ⟨n, st', k1, k2, _⟩ := o4 sampleHost ['o', 'u', 't'] clones (fun _ => rfl) hfresh
  refine ⟨st, img, n, st', c1, o2, k1, ?_⟩
  have := k2 [['A'], ['c']] (by decide)
  rw [hp] at this
  rw [show ([['w'], ['o', 'u', 't'], ['A'], ['c']] : HostPath) = [['w'], ['o', 'u', 't']] ++ [['A'], ['c']] from rfl, this]
  decide

/-- The hypotheses of C78 hold for the same host with a symbolic link `l` in `/s/A`: it does not pack. -/
example (st : HostFs) :
    (cmdPack sampleTool (stdFs { treeReader with
        names := fun d => treeReader.names d ++ if d = [['s'], ['A']] then [['l']] else []
        special := fun q => q = [['s'], ['A'], ['l']] }) (fun _ => none) [['w']] treeHost [['s']] none).2 ≠ .ok st := by
  refine C78_special_refused sampleTool none ⟨fun d => ⟨?_, fun n => ?_⟩, fun b => by simp [treeReader], ?_⟩ tree_wellFormed
    (by decide) (d := [['A']]) (c := ['l']) (by decide) (by decide) st
  · by_cases hd : d = [['s'], ['A']]
    · subst hd; decide
    · simp only [if_neg hd, List.append_nil]; exact (tree_reads.1 d).1
  · have := (tree_reads.1 d).2 n
    simp only [List.mem_append, this, decide_eq_true_eq]
    have e : treeReader.special (d ++ [n]) = true ↔ False := by simp [treeReader]
    rw [e, or_false]
    by_cases hd : d = [['s'], ['A']]
    · subst hd; simp
    · have : d ++ [n] ≠ [['s'], ['A'], ['l']] := by
        intro he
        rw [show ([['s'], ['A'], ['l']] : HostPath) = [['s'], ['A']] ++ [['l']] from rfl] at he
        exact hd (List.append_inj' he rfl).1
      simp [hd, this]
  · intro q hq
    have hq : q = [['s'], ['A'], ['l']] := by simpa using hq
    subst hq; decide

end Xdvdfs.Props
