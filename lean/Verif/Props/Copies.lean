import Verif.Props.SameDirectory
import Verif.Props.SameImage
import Verif.Proof.Patch
import Verif.Proof.CliPaths

/-!
# Packing a copy of a directory (C143)
-/

namespace Xdvdfs.Props

open Xdvdfs Spec

/-- What packing takes from an entry of a listing: not the length of a directory. -/
def shownAs (e : FileEntry) : Str × Bool × Nat := (e.name, e.isDir, if e.isDir then 0 else e.len)

/-- Both list the same names in the same order, with the same kinds and the same lengths of files. -/
def SameListings (rd rd' : ReadDir) : Prop :=
  ∀ p l l', rd p = .ok l → rd' p = .ok l' → l.map shownAs = l'.map shownAs

theorem subdirs_alike {d : Path} : ∀ {l l' : List FileEntry}, l.map shownAs = l'.map shownAs →
    subdirPaths d l = subdirPaths d l' := by
  intro l
  induction l with
  | nil => intro l' h; cases l' with
    | nil => rfl
    | cons => cases h
  | cons e l ih =>
    intro l' h
    cases l' with
    | nil => cases h
    | cons e' l' =>
      simp only [List.map_cons, List.cons.injEq, shownAs, Prod.mk.injEq] at h
      obtain ⟨⟨h1, h2, _⟩, h4⟩ := h
      have := ih h4
      unfold subdirPaths at this ⊢
      rw [List.filter_cons, List.filter_cons, h2]
      split
      · rw [List.map_cons, List.map_cons, this, h1]
      · exact this

theorem walked_alike {rd rd' : ReadDir} (hs : SameListings rd rd') {ds : List Path} {D D' : List (Path × List FileEntry)}
    (h : Walked rd ds D) (h' : Walked rd' ds D') :
    D.map (fun x => (x.1, x.2.map shownAs)) = D'.map (fun x => (x.1, x.2.map shownAs)) := by
  induction h generalizing D' with
  | nil => cases h'; rfl
  | @cons d ds l D k _ ih =>
    cases h' with
    | @cons _ _ l' D' k' w =>
      have := hs d l l' k k'
      rw [List.map_cons, List.map_cons, this]
      rw [← subdirs_alike this] at w
      rw [ih w]

theorem addEntries_alike (M : PathMap TabWriter) (p : Path) : ∀ {l l' : List FileEntry} (w : TabWriter),
    l.map shownAs = l'.map shownAs → addEntries M p w l = addEntries M p w l' := by
  intro l
  induction l with
  | nil => intro l' w h; cases l' with
    | nil => rfl
    | cons => cases h
  | cons e l ih =>
    intro l' w h
    cases l' with
    | nil => cases h
    | cons e' l' =>
      simp only [List.map_cons, List.cons.injEq, shownAs, Prod.mk.injEq] at h
      obtain ⟨⟨h1, h2, h3⟩, h4⟩ := h
      have he : addEntry M p w e = addEntry M p w e' := by
        unfold addEntry
        rw [h1, h2]
        rw [h2] at h3
        cases hd : e'.isDir with
        | true => rfl
        | false =>
          rw [hd] at h3
          simp only [Bool.false_eq_true, if_false] at h3 ⊢
          rw [h3]
      simp only [addEntries, he]
      cases addEntry M p w e' with
      | ok w => exact ih w h4
      | err => rfl
      | panic => rfl
      | hang => rfl

theorem tablesLoop_alike : ∀ {D D' : List (Path × List FileEntry)} (M : PathMap TabWriter),
    D.map (fun x => (x.1, x.2.map shownAs)) = D'.map (fun x => (x.1, x.2.map shownAs)) →
    tablesLoop D M = tablesLoop D' M := by
  intro D
  induction D with
  | nil => intro D' M h; cases D' with
    | nil => rfl
    | cons => cases h
  | cons x D ih =>
    intro D' M h
    cases D' with
    | nil => cases h
    | cons x' D' =>
      simp only [List.map_cons, List.cons.injEq, Prod.mk.injEq] at h
      obtain ⟨⟨h1, h2⟩, h3⟩ := h
      obtain ⟨p, l⟩ := x
      obtain ⟨p', l'⟩ := x'
      simp only at h1 h2
      subst h1
      simp only [tablesLoop, addEntries_alike M p TabWriter.new h2]
      cases addEntries M p TabWriter.new l' with
      | ok w =>
        simp only [Res.ok_bind]
        cases w.computeSize with
        | ok w => exact ih _ h3
        | err => rfl
        | panic => rfl
        | hang => rfl
      | err => rfl
      | panic => rfl
      | hang => rfl

theorem plan_alike {rd rd' : ReadDir} (hs : SameListings rd rd') {pts pts' : Path → Str}
    {D D' : List (Path × List FileEntry)} {M M' : PathMap TabWriter} {rootW rootW' : TabWriter}
    {rootSize rootSize' next next' : Nat} {recs recs' : List Rec} {n n' : Nat}
    (h : PlanShape rd pts D M rootW rootSize next recs n []) (h' : PlanShape rd' pts' D' M' rootW' rootSize' next' recs' n' []) :
    recs.map recPart = recs'.map recPart ∧ rootSize = rootSize' := by
  have hM := h.tables
  have hD := congrArg List.reverse (walked_alike hs h.walked h'.walked)
  rw [← List.map_reverse, ← List.map_reverse] at hD
  rw [tablesLoop_alike [] hD, h'.tables] at hM
  cases hM
  have hr := h.head
  rw [h'.head] at hr
  cases hr
  have hsz := h.size
  rw [h'.size] at hsz
  cases hsz
  have ha := h.alloc
  rw [h'.alloc] at ha
  cases ha
  refine ⟨chain_unique h.chain h'.chain ?_, rfl⟩
  have := h.split
  rw [h'.split, List.append_nil, List.append_nil] at this
  exact this.symm

/-- C143, for every source: two sources that list the same names in the same order, with the same kinds, lengths and
contents of files, give the same image, byte for byte.  What they say about the lengths of directories, how they print
paths and how they deliver the contents does not matter. -/
theorem C143_same_listings {fs fs' : SourceFs} {content content' : Path → Bytes} {faults faults' : Faults}
    {fuel fuel' : Nat} {s s' : PackState ImgFile} (hb : Bounded fs) (hf : FaithfulTo fs content) (hb' : Bounded fs')
    (hf' : FaithfulTo fs' content') (h : createImage (fileEnv fs faults) fuel ⟨⟨[], []⟩, []⟩ = (.ok (), s))
    (h' : createImage (fileEnv fs' faults') fuel' ⟨⟨[], []⟩, []⟩ = (.ok (), s')) (hs : SameListings fs.readDir fs'.readDir)
    (hc : ∀ p e, EntryIn fs.readDir p e → e.isDir = false → content (p ++ [e.name]) = content' (p ++ [e.name])) :
    s.dev.img = s'.dev.img := by
  obtain ⟨M, Loc, l0, D, rootW, rootSize, next, recs, n, P⟩ := pack_packedBy hb hf h
  obtain ⟨M', Loc', l0', D', rootW', rootSize', next', recs', n', P'⟩ := pack_packedBy hb' hf' h'
  obtain ⟨k1, rfl⟩ := plan_alike hs P.shape P'.shape
  rw [P.image, P'.image, ← k1]
  refine image_same ?_
  intro x hx l hl hd
  obtain ⟨e, k1, k2, k3, _⟩ := P.files x hx l hl hd
  rw [← k2]
  exact hc x.path e k1 k3

theorem std_same_copy {r r' : DirReader} {fs fs' : HostFs} {src src' : HostPath} (hr : ReadsHost r fs)
    (hr' : ReadsHost r' fs') (hw : WellFormedHost fs) (hw' : WellFormedHost fs') (hs : SameBelow fs src fs' src')
    (hL : Listable (stdFs r fs src).readDir) (hL' : Listable (stdFs r' fs' src').readDir) :
    SameSource (stdFs r fs src).readDir (stdFs r' fs' src').readDir (stdContent fs src) (stdContent fs' src') := by
  have key : ∀ {r r' : DirReader} {fs fs' : HostFs} {src src' : HostPath}, ReadsHost r' fs' → WellFormedHost fs' →
      SameBelow fs src fs' src' → Listable (stdFs r' fs' src').readDir →
      ∀ p name isDir, (∃ e, EntryIn (stdFs r fs src).readDir p e ∧ e.name = name ∧ e.isDir = isDir) →
      ∃ e, EntryIn (stdFs r' fs' src').readDir p e ∧ e.name = name ∧ e.isDir = isDir := by
    rintro r r' fs fs' src src' hr' hw' hs hL' p name isDir ⟨e, he, rfl, rfl⟩
    have h1 := std_entry_host he
    rw [hs _ (by simp)] at h1
    have hn : fs' (src' ++ (p ++ [e.name])) ≠ none := by
      rcases h1 with ⟨_, h⟩ | ⟨_, d, h, _⟩ <;> rw [h] <;> nofun
    obtain ⟨p', e', he', heq⟩ := std_host_entry hr' hw' hL' _ rfl (by simp) hn
    obtain ⟨rfl, h2⟩ := List.append_inj' heq rfl
    have h2 : e.name = e'.name := by simpa using h2
    refine ⟨e', he', h2.symm, ?_⟩
    have h1' := std_entry_host he'
    rw [← h2] at h1'
    rcases h1 with ⟨a, b⟩ | ⟨a, d, b, _⟩ <;> rcases h1' with ⟨a', b'⟩ | ⟨a', d', b', _⟩ <;> rw [a, a'] <;>
      (rw [b] at b'; cases b')
  refine ⟨fun p name isDir => ⟨key hr' hw' hs hL' p name isDir, key hr hw (fun s h => (hs s h).symm) hL p name isDir⟩, ?_⟩
  intro p e _ _
  simp only [stdContent, hs (p ++ [e.name]) (by simp)]

/-- C143, the checksum.  Two directories, possibly on two hosts, that hold the same pack to images with the same checksum,
for every hash function: whatever the hosts, the places of the directories, and the orders in which the hosts list them.
(C142 is the converse for images.) -/
theorem C143_copy_checksum {H : Type} (hash : Bytes → H) (t t' : Tool) {r r' : DirReader} {faults faults' : Faults}
    {cwd cwd' : HostPath} {fs st fs' st' : HostFs} {src src' out out' : HostPath} (hr : ReadsHost r fs)
    (hr' : ReadsHost r' fs') (hw : WellFormedHost fs) (hw' : WellFormedHost fs') (hn : ProperNames fs)
    (hdir : fs src = some .dir) (hdir' : fs' src' = some .dir) (hs : SameBelow fs src fs' src')
    (h : (cmdPack t (stdFs r) faults cwd fs src (some out)).2 = .ok st) (hc : DirClosesCleanly t r faults fs src)
    (h' : (cmdPack t' (stdFs r') faults' cwd' fs' src' (some out')).2 = .ok st')
    (hc' : DirClosesCleanly t' r' faults' fs' src') :
    ∃ img img', IsFile st out img ∧ IsFile st' out' img' ∧
      ∃ vol vol' n c, readVolume (fileDev img) = .ok vol ∧ readVolume (fileDev img') = .ok vol' ∧
        ∀ k, n < k → checksum hash (fileDev img) vol k = .ok c ∧ checksum hash (fileDev img') vol' k = .ok c := by
  obtain ⟨_, b, o1, _, h2, h3, _⟩ := cmdPack_dir_ok hdir h
  obtain ⟨_, b', o1', _, h2', h3', _⟩ := cmdPack_dir_ok hdir' h'
  obtain rfl := o1 _ rfl
  obtain rfl := o1' _ rfl
  have hbuf : b.buf = [] := by unfold DirClosesCleanly at hc; rw [h2] at hc; exact hc
  have hbuf' : b'.buf = [] := by unfold DirClosesCleanly at hc'; rw [h2'] at hc'; exact hc'
  obtain ⟨⟨s, g1, g2⟩, _, _⟩ := C63_complete_partial h2 hbuf
  obtain ⟨⟨s', g1', g2'⟩, _, _⟩ := C63_complete_partial h2' hbuf'
  have hb := std_bounded (fs := fs) (root := src) hr.2.1
  have hf := std_faithful (fs := fs) (root := src) hr.2.1
  have hb' := std_bounded (fs := fs') (root := src') hr'.2.1
  have hf' := std_faithful (fs := fs') (root := src') hr'.2.1
  obtain ⟨_, _, _, hP⟩ := pack_packed hb hf g1
  obtain ⟨_, _, _, hP'⟩ := pack_packed hb' hf' g1'
  have := C47_checksum_packed hash hb hf hb' hf' g1 g1' (std_same_copy hr hr' hw hw' hs hP.listable hP'.listable) (by
    intro p e he
    refine (hn (src ++ p) e.name ?_).2.1
    rw [List.append_assoc]
    rcases std_entry_host he with ⟨_, h⟩ | ⟨_, d, h, _⟩ <;> rw [h] <;> nofun)
  rw [g2, g2'] at this
  exact ⟨b.img, b'.img, h3, h3', this⟩

theorem std_listings {r r' : DirReader} {fs fs' : HostFs} {src src' : HostPath} (hs : SameBelow fs src fs' src')
    (ho : ∀ p, r.names (src ++ p) = r'.names (src' ++ p)) :
    SameListings (stdFs r fs src).readDir (stdFs r' fs' src').readDir := by
  intro p l l' h h'
  obtain ⟨_, a1, a2⟩ := stdReadDir_ok h
  obtain ⟨_, b1, b2⟩ := stdReadDir_ok h'
  rw [ho p, ← b1] at a1
  clear b1 h h'
  have key : ∀ e ∈ l, ∀ e' ∈ l', e.name = e'.name → shownAs e = shownAs e' := by
    intro e he e' he' hn
    have k := (stdEntry_ok (a2 e he)).2.2
    have k' := (stdEntry_ok (b2 e' he')).2.2
    have := hs (p ++ [e.name]) (by simp)
    rw [hn] at this k
    simp only [List.append_assoc] at k k'
    rw [this] at k
    rcases k with ⟨x1, x2⟩ | ⟨x1, d, x2, x3⟩ <;> rcases k' with ⟨y1, y2⟩ | ⟨y1, d', y2, y3⟩ <;> rw [x2] at y2
    · simp [shownAs, hn, x1, y1]
    · cases y2
    · cases y2
    · cases y2
      simp [shownAs, hn, x1, y1, x3, y3]
  clear a2 b2
  induction l generalizing l' with
  | nil => cases l' with
    | nil => rfl
    | cons => cases a1
  | cons e l ih => cases l' with
    | nil => cases a1
    | cons e' l' =>
      simp only [List.map_cons, List.cons.injEq] at a1
      rw [List.map_cons, List.map_cons, key e List.mem_cons_self e' List.mem_cons_self a1.1,
        ih _ a1.2 (fun x hx y hy => key x (List.mem_cons_of_mem _ hx) y (List.mem_cons_of_mem _ hy))]

/-- C143, the image.  If moreover the hosts list the directories in the same order, the images are the same, byte for
byte.  Where the directories are, and how long the host says directories are, does not matter. -/
theorem C143_copy_image (t t' : Tool) {r r' : DirReader} {faults faults' : Faults}
    {cwd cwd' : HostPath} {fs st fs' st' : HostFs} {src src' out out' : HostPath} (hr : ReadsHost r fs)
    (hr' : ReadsHost r' fs') (hdir : fs src = some .dir) (hdir' : fs' src' = some .dir) (hs : SameBelow fs src fs' src')
    (ho : ∀ p, r.names (src ++ p) = r'.names (src' ++ p))
    (h : (cmdPack t (stdFs r) faults cwd fs src (some out)).2 = .ok st) (hc : DirClosesCleanly t r faults fs src)
    (h' : (cmdPack t' (stdFs r') faults' cwd' fs' src' (some out')).2 = .ok st')
    (hc' : DirClosesCleanly t' r' faults' fs' src') : ∃ img, IsFile st out img ∧ IsFile st' out' img := by
  obtain ⟨_, b, o1, _, h2, h3, _⟩ := cmdPack_dir_ok hdir h
  obtain ⟨_, b', o1', _, h2', h3', _⟩ := cmdPack_dir_ok hdir' h'
  obtain rfl := o1 _ rfl
  obtain rfl := o1' _ rfl
  have hbuf : b.buf = [] := by unfold DirClosesCleanly at hc; rw [h2] at hc; exact hc
  have hbuf' : b'.buf = [] := by unfold DirClosesCleanly at hc'; rw [h2'] at hc'; exact hc'
  obtain ⟨⟨s, g1, g2⟩, _, _⟩ := C63_complete_partial h2 hbuf
  obtain ⟨⟨s', g1', g2'⟩, _, _⟩ := C63_complete_partial h2' hbuf'
  have := C143_same_listings (std_bounded (fs := fs) (root := src) hr.2.1) (std_faithful (fs := fs) (root := src) hr.2.1)
    (std_bounded (fs := fs') (root := src') hr'.2.1) (std_faithful (fs := fs') (root := src') hr'.2.1) g1 g1'
    (std_listings hs ho) (fun p e _ _ => by simp only [stdContent, hs (p ++ [e.name]) (by simp)])
  rw [g2, g2'] at this
  exact ⟨b.img, h3, by rw [this]; exact h3'⟩

/-- After a successful `pack` the host is still well-formed, and its directories are still there. -/
theorem cmdPack_keeps {t : Tool} {read : HostFs → HostPath → SourceFs} {faults : Faults} {cwd : HostPath}
    {fs st : HostFs} {src out : HostPath} (hw : WellFormedHost fs) (hdir : fs src = some .dir)
    (h : (cmdPack t read faults cwd fs src (some out)).2 = .ok st) :
    WellFormedHost st ∧ ∀ q, fs q = some .dir → st q = some .dir := by
  obtain ⟨w, b, o1, _, _, h3, h4⟩ := cmdPack_dir_ok hdir h
  have e := (o1 _ rfl).symm
  subst e
  have ho : fs out ≠ some .dir ∧ fs out.dropLast = some .dir := by
    unfold cmdPack at h
    rw [hdir] at h
    simp only [if_true] at h
    unfold packPathDir at h
    cases hp : packOpen fs src out with
    | ok fs1 =>
      unfold packOpen at hp
      rw [hdir] at hp
      simp only at hp
      split at hp
      · cases hp
      split at hp
      · cases hp
      split at hp
      · cases hp
      next hd => exact ⟨fun hx => hd (.inl hx), Classical.byContradiction fun hx => hd (.inr hx)⟩
    | err e => rw [hp] at h; cases h
    | panic => rw [hp] at h; cases h
    | hang => rw [hp] at h; cases h
  have hst : st = fs.set out (.file b.img) := by
    funext q
    by_cases hq : q = out
    · rw [hq, h3, set_same]
    · rw [h4 q hq, set_other hq]
  refine ⟨hst ▸ WellFormedHost.set hw (.inl ho.1) (.inr ho.2), fun q hq => ?_⟩
  rw [h4 q (fun e => ho.1 (e ▸ hq)), hq]

/-- C143, there and back again: what `unpack` makes of a packed directory packs to an image with the same checksum; and
with the same bytes, if the host lists the copy in the order in which it lists the original. -/
theorem C143_pack_unpack_pack {H : Type} (hash : Bytes → H) (t t' : Tool) {r : DirReader} {faults : Faults}
    {cwd : HostPath} {fs st : HostFs} {src out : HostPath} (hr : ReadsHost r fs) (hw : WellFormedHost fs)
    (hn : ProperNames fs) (hdir : fs src = some .dir)
    (h : (cmdPack t (stdFs r) faults cwd fs src (some out)).2 = .ok st) (hc : DirClosesCleanly t r faults fs src)
    (host : Host) (dest : Str) (clones : Bool) (hh : ∀ p, host.faults p = .none) (hfresh : FreshDest host dest st)
    (hcwd : fs host.cwd = some .dir) :
    ∃ img n st2, IsFile st out img ∧ (∀ fuel, n < fuel → cmdUnpack host img clones dest fuel st = (.ok (), st2)) ∧
      ∀ {r' : DirReader} {faults' : Faults} {cwd' : HostPath} {st3 : HostFs} {out' : HostPath}, ReadsHost r' st2 →
        st2 (Spec.placeOf host dest) = some .dir →
        (cmdPack t' (stdFs r') faults' cwd' st2 (Spec.placeOf host dest) (some out')).2 = .ok st3 →
        DirClosesCleanly t' r' faults' st2 (Spec.placeOf host dest) →
        ∃ img', IsFile st3 out' img' ∧
          (∃ vol vol' n c, readVolume (fileDev img) = .ok vol ∧ readVolume (fileDev img') = .ok vol' ∧
            ∀ k, n < k → checksum hash (fileDev img) vol k = .ok c ∧ checksum hash (fileDev img') vol' k = .ok c) ∧
          ((∀ p, r.names (src ++ p) = r'.names (Spec.placeOf host dest ++ p)) → img' = img) := by
  obtain ⟨_, img, o1, o2, _, o4⟩ := C77_pack_unpack_identity t hr hw hn hdir h hc
  obtain rfl := o1 _ rfl
  obtain ⟨n, st2, k1, k2, _⟩ := o4 host dest clones hh hfresh
  refine ⟨img, n, st2, o2, k1, ?_⟩
  intro r' faults' cwd' st3 out' hr' hdir' h' hc'
  obtain ⟨w1, w2⟩ := cmdPack_keeps hw hdir h
  have hw' : WellFormedHost st2 := by
    have := (cmdUnpack_keeps (h := host) (img := img) (clones := clones) (dest := dest) (fuel := n + 1)
      ⟨w1, w2 _ hcwd⟩).1.wf
    rwa [k1 (n + 1) (by omega)] at this
  have hs : SameBelow fs src st2 (Spec.placeOf host dest) := fun p hp => (k2 p hp).symm
  have one : ∀ {st : HostFs} {o : HostPath} {a b : Bytes}, IsFile st o a → IsFile st o b → a = b := by
    intro st o a b ha hb
    unfold IsFile at ha hb
    rw [ha] at hb
    exact HostNode.file.inj (Option.some.inj hb)
  obtain ⟨i, i', g1, g2, g3⟩ := C143_copy_checksum hash t t' hr hr' hw hw' hn hdir hdir' hs h hc h' hc'
  obtain rfl := one g1 o2
  refine ⟨i', g2, g3, fun ho => ?_⟩
  obtain ⟨j, f1, f2⟩ := C143_copy_image t t' hr hr' hdir hdir' hs ho h hc h' hc'
  rw [one g2 f2, one g1 f1]

/-! ## Concrete cases -/

/-- The names `s` and `z` in the root exchanged. -/
def moved : HostPath → HostPath
  | c :: q => (if c = ['s'] then ['z'] else if c = ['z'] then ['s'] else c) :: q
  | [] => []

/-- The host with the directory `/s`, which is now `/z`. -/
def movedHost : HostFs := fun q => treeHost (moved q)

/-- It lists in the same order, and cuts what it copies into single bytes. -/
def movedReader : DirReader where
  names := fun d => if d = [] then [['w'], ['z']] else treeReader.names (moved d)
  dirLen := fun _ => 0
  special := fun _ => false
  split := fun b => b.map (fun x => [x])

theorem moved_reads : ReadsHost movedReader movedHost := by
  refine ⟨fun d => ?_, fun b => ?_, nofun⟩
  · by_cases hd : d = []
    · subst hd
      refine ⟨by decide, fun n => ?_⟩
      have h1 : n ∈ movedReader.names [] ↔ n = ['w'] ∨ n = ['z'] := by simp [movedReader]
      rw [h1]
      simp only [movedReader, Bool.false_eq_true, or_false, List.nil_append, movedHost, moved]
      by_cases e1 : n = ['s']
      · subst e1; decide
      · by_cases e2 : n = ['z']
        · subst e2; decide
        · by_cases e3 : n = ['w']
          · subst e3; decide
          · rw [if_neg e1, if_neg e2]
            constructor
            · rintro (h | h)
              · exact absurd h e3
              · exact absurd h e2
            · intro h
              simp [treeHost, e1, e3] at h
    · obtain ⟨c, q, rfl⟩ := List.exists_cons_of_ne_nil hd
      have := tree_reads.1 (moved (c :: q))
      refine ⟨?_, fun n => ?_⟩
      · simp only [movedReader, if_neg hd]; exact this.1
      · have := this.2 n
        simp only [movedReader, if_neg hd]
        exact this
  · simp only [movedReader]
    induction b with
    | nil => rfl
    | cons x b ih => simp [ih]

theorem moved_same : SameBelow treeHost [['s']] movedHost [['z']] := fun _ _ => rfl

theorem moved_entries (p : Path) : ∀ ns : List Str, stdEntries movedReader movedHost ([['z']] ++ p) ns =
    stdEntries treeReader treeHost ([['s']] ++ p) ns := by
  intro ns
  induction ns with
  | nil => rfl
  | cons n ns ih =>
    have : stdEntry movedReader movedHost ([['z']] ++ p) n = stdEntry treeReader treeHost ([['s']] ++ p) n := rfl
    simp only [stdEntries, ih, this]

theorem moved_readDir : (stdFs movedReader movedHost [['z']]).readDir = sampleFs.readDir := by
  rw [← tree_readDir]
  funext p
  show stdReadDir _ _ _ _ = stdReadDir _ _ _ _
  unfold stdReadDir
  rw [show movedHost ([['z']] ++ p) = treeHost ([['s']] ++ p) from rfl]
  rw [show movedReader.names ([['z']] ++ p) = treeReader.names ([['s']] ++ p) from rfl, moved_entries p]

theorem moved_packs (pol : BufPolicy) :
    ∃ b, packFile (stdFs movedReader movedHost [['z']]) pol (fun _ => none) 2 = (.ok (), b) ∧ b.buf = [] := by
  refine std_packs ?_ (tree := sampleTree) ?_ sample_fits sample_storable sample_few (by decide) pol
  · rw [moved_readDir]; exact sample_listable
  · rw [moved_readDir]; exact sample_tree

theorem moved_wellFormed : WellFormedHost movedHost := by
  refine ⟨by decide, fun q c h => ?_⟩
  cases q with
  | nil => decide
  | cons x q => exact tree_wellFormed.2 (moved (x :: q)) c h

/-- The hypotheses of C143 hold for the two hosts: `/s` on the one and `/z` on the other give the same image, and so the
same checksum. -/
example (hash : Bytes → Bytes) : ∃ st st' img,
    (cmdPack sampleTool (stdFs treeReader) (fun _ => none) [['w']] treeHost [['s']] (some [['w'], ['x']])).2 = .ok st ∧
    (cmdPack sampleTool (stdFs movedReader) (fun _ => none) [] movedHost [['z']] (some [['w'], ['y']])).2 = .ok st' ∧
    IsFile st [['w'], ['x']] img ∧ IsFile st' [['w'], ['y']] img ∧
    ∃ vol n c, readVolume (fileDev img) = .ok vol ∧ ∀ k, n < k → checksum hash (fileDev img) vol k = .ok c := by
  obtain ⟨b, h1, h2⟩ := tree_packs (cliPolicy sampleTool.early)
  obtain ⟨b', h1', h2'⟩ := moved_packs (cliPolicy sampleTool.early)
  obtain ⟨st, c1, c2, _⟩ := cmdPack_succeeds (t := sampleTool) (cwd := [['w']]) (out := [['w'], ['x']])
    (by decide) (by decide) (by decide) (by decide) h1
  obtain ⟨st', c1', c2', _⟩ := cmdPack_succeeds (t := sampleTool) (cwd := []) (out := [['w'], ['y']])
    (by decide) (by decide) (by decide) (by decide) h1'
  have hclose : DirClosesCleanly sampleTool treeReader (fun _ => none) treeHost [['s']] := by
    unfold DirClosesCleanly
    have h1' : packFile (stdFs treeReader treeHost [['s']]) (cliPolicy sampleTool.early) (fun _ => none) sampleTool.fuel =
      (.ok (), b) := h1
    rw [h1']; exact h2
  have hclose' : DirClosesCleanly sampleTool movedReader (fun _ => none) movedHost [['z']] := by
    unfold DirClosesCleanly
    have h1' : packFile (stdFs movedReader movedHost [['z']]) (cliPolicy sampleTool.early) (fun _ => none)
      sampleTool.fuel = (.ok (), b') := h1'
    rw [h1']; exact h2'
  obtain ⟨img, g1, g2⟩ := C143_copy_image sampleTool sampleTool tree_reads moved_reads (by decide) (by decide) moved_same
    (fun _ => rfl) c1 hclose c1' hclose'
  obtain ⟨i, i', f1, _, vol, _, n, c, f3, _, f5⟩ := C143_copy_checksum hash sampleTool sampleTool tree_reads moved_reads
    tree_wellFormed moved_wellFormed tree_properNames (by decide) (by decide) moved_same c1 hclose c1' hclose'
  have : i = img := by
    unfold IsFile at f1 g1
    rw [f1] at g1
    exact HostNode.file.inj (Option.some.inj g1)
  subst this
  exact ⟨st, st', i, c1, c1', g1, g2, vol, n, c, f3, fun k hk => (f5 k hk).1⟩

end Xdvdfs.Props
