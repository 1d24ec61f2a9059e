import Verif.Spec.Relist
import Verif.Proof.Lookup
import Verif.Proof.ImgFs

/-! Lemmas about the listing of an image and the listing of its repacked copy. -/

namespace Xdvdfs

open Res Spec

/-! ## More fuel does not change a scan -/

theorem nextLoop_more {dev : Dev} : ∀ (fuel : Nat) (s : Scan) (r : Option DirEnt × Scan),
    Scan.nextLoop dev fuel s = .ok r → ∀ fuel', fuel ≤ fuel' → Scan.nextLoop dev fuel' s = .ok r := by
  intro fuel
  induction fuel with
  | zero => intro s r h; cases h
  | succ fuel ih =>
    intro s r h fuel' hf
    obtain ⟨f, rfl⟩ : ∃ f, fuel' = f + 1 := ⟨fuel' - 1, by omega⟩
    simp only [Scan.nextLoop] at h ⊢
    obtain ⟨x, h1, h2⟩ := bind_eq_ok.1 h
    rw [h1]
    simp only [Res.ok_bind]
    cases x with
    | inl s' => exact ih s' r h2 f (by omega)
    | inr r' => exact h2

theorem next_more {dev : Dev} {fuel fuel' : Nat} {s : Scan} {r : Option DirEnt × Scan} (h : s.next dev fuel = .ok r)
    (hf : fuel ≤ fuel') : s.next dev fuel' = .ok r := by
  unfold Scan.next at h ⊢
  split
  · rename_i hc; rw [if_pos hc] at h; exact h
  · rename_i hc; rw [if_neg hc] at h; exact nextLoop_more _ _ _ h _ hf

theorem scanDrain_more {dev : Dev} : ∀ (fuel : Nat) (s : Scan) (acc l : List DirEnt),
    scanDrain dev fuel s acc = .ok l → ∀ fuel', fuel ≤ fuel' → scanDrain dev fuel' s acc = .ok l := by
  intro fuel
  induction fuel with
  | zero => intro s acc l h; cases h
  | succ fuel ih =>
    intro s acc l h fuel' hf
    obtain ⟨f, rfl⟩ : ∃ f, fuel' = f + 1 := ⟨fuel' - 1, by omega⟩
    simp only [scanDrain] at h ⊢
    obtain ⟨x, h1, h2⟩ := bind_eq_ok.1 h
    rw [next_more h1 hf]
    simp only [Res.ok_bind]
    obtain ⟨o, s'⟩ := x
    cases o with
    | none => exact h2
    | some d => exact ih _ _ _ h2 f (by omega)

theorem scanAll_more {dev : Dev} {tab : Region} {fuel fuel' : Nat} {l : List DirEnt} (h : scanAll dev tab fuel = .ok l)
    (hf : fuel ≤ fuel') : scanAll dev tab fuel' = .ok l := by
  unfold scanAll at h ⊢
  obtain ⟨s, h1, h2⟩ := bind_eq_ok.1 h
  rw [h1]
  simp only [Res.ok_bind]
  exact scanDrain_more _ _ _ _ h2 _ hf

theorem says_table {c d : DirEnt} (h : saysOf c = saysOf d) :
    c.node.dirent = d.node.dirent ∧ c.nameStr = d.nameStr := by
  simp only [saysOf, Prod.mk.injEq] at h
  exact ⟨h.1, by unfold DirEnt.nameStr; rw [h.2]⟩

theorem says_entry {c d : DirEnt} (h : saysOf c = saysOf d) : fileEntryOf c = fileEntryOf d := by
  obtain ⟨h1, h2⟩ := says_table h
  simp only [fileEntryOf, h1, h2]

theorem alike_linked {dev : Dev} {wf : Nat} {tab : Region} (h : ReadsAlike dev wf tab) {ch S : List DirEnt}
    (h1 : walkDirentTree dev tab wf = .ok ch) (h2 : scanAll dev tab wf = .ok S) {d : DirEnt} (hd : d ∈ S) :
    ∃ c ∈ ch, saysOf c = saysOf d := by
  obtain ⟨l, s, e1, e2, hp⟩ := h
  rw [h1] at e1; rw [h2] at e2
  obtain rfl := Res.ok.inj e1
  obtain rfl := Res.ok.inj e2
  exact List.mem_map.1 (hp.mem_iff.1 (List.mem_map_of_mem hd))

theorem alike_stored {dev : Dev} {wf : Nat} {tab : Region} (h : ReadsAlike dev wf tab) {ch S : List DirEnt}
    (h1 : walkDirentTree dev tab wf = .ok ch) (h2 : scanAll dev tab wf = .ok S) {c : DirEnt} (hc : c ∈ ch) :
    ∃ d ∈ S, saysOf d = saysOf c := by
  obtain ⟨l, s, e1, e2, hp⟩ := h
  rw [h1] at e1; rw [h2] at e2
  obtain rfl := Res.ok.inj e1
  obtain rfl := Res.ok.inj e2
  exact List.mem_map.1 (hp.mem_iff.2 (List.mem_map_of_mem hc))

theorem distinct_dirent {ds : List DirEnt} (h : DistinctNames ((ds.map fileEntryOf).map (·.name))) {d d' : DirEnt}
    (h1 : d ∈ ds) (h2 : d' ∈ ds) (h3 : d.nameStr = d'.nameStr) : d = d' := by
  induction ds with
  | nil => cases h1
  | cons a ds ih =>
    simp only [DistinctNames, List.map_cons, List.pairwise_cons, List.mem_map] at h ih
    have hne : ∀ x ∈ ds, a.nameStr ≠ x.nameStr := by
      intro x hx he
      refine h.1 x.nameStr ⟨_, ⟨x, hx, rfl⟩, rfl⟩ ?_
      show SameName a.nameStr x.nameStr
      rw [he]; rfl
    rcases List.mem_cons.1 h1 with h4 | h4 <;> rcases List.mem_cons.1 h2 with h5 | h5
    · rw [h4, h5]
    · exact absurd (h4 ▸ h3) (hne _ h5)
    · exact absurd (h5 ▸ h3.symm) (hne _ h4)
    · exact ih h.2 h4 h5

theorem firstNamed_unique {ds : List DirEnt} (h : DistinctNames ((ds.map fileEntryOf).map (·.name))) {d : DirEnt}
    (hd : d ∈ ds) : firstNamed ds d.nameStr = some d := by
  obtain ⟨d', h'⟩ := Option.isSome_iff_exists.1 (firstNamed_isSome hd)
  obtain ⟨k1, k2⟩ := firstNamed_some h'
  rw [h', distinct_dirent h k1 hd k2]

theorem imgReadDir_of {dev : Dev} {wf : Nat} {root t : Region} {p : Path} {S : List DirEnt}
    (ht : imgTable dev wf root p = .ok t) (hS : scanAll dev t wf = .ok S) :
    imgDirents dev wf root p = .ok S ∧ imgReadDir dev wf root p = .ok (S.map fileEntryOf) := by
  have : imgDirents dev wf root p = .ok S := by
    unfold imgDirents; rw [ht]; exact hS
  exact ⟨this, by unfold imgReadDir; rw [this]; rfl⟩

/-- A directory of the tree that is packed is one that the listing visits. -/
def Reached (dev : Dev) (wf : Nat) (root : Region) (L : List (Str × DirEnt)) (p : Path) (t : Region) : Prop :=
  DirOf (imgReadDir dev wf root) p ∧ imgTable dev wf root p = .ok t ∧ Visited dev wf L (slashPath p, t) ∧
    ReadsAlike dev wf t

theorem reached_step {dev : Dev} {wf : Nat} {root : Region} {L : List (Str × DirEnt)}
    (hE : EveryDir root L (ReadsAlike dev wf)) (hD : AllDistinct (imgReadDir dev wf root)) {p : Path} {t : Region}
    (h : Reached dev wf root L p t) : ∃ ch S, walkDirentTree dev t wf = .ok ch ∧ scanAll dev t wf = .ok S ∧
      imgDirents dev wf root p = .ok S ∧ imgReadDir dev wf root p = .ok (S.map fileEntryOf) ∧
      (∀ c ∈ ch, (slashPath p, c) ∈ L) ∧ (∀ c ∈ ch, ∃ d ∈ S, saysOf d = saysOf c) ∧
      (∀ d ∈ S, ∃ c ∈ ch, saysOf c = saysOf d) ∧
      ∀ d ∈ S, ∀ t', d.node.dirent.direntTable = some t' → Reached dev wf root L (p ++ [d.nameStr]) t' := by
  obtain ⟨h1, h2, h3, h4⟩ := h
  obtain ⟨ch, e1, e2, e3⟩ := visited_step h3
  obtain ⟨_, S, _, hS, _⟩ := id h4
  obtain ⟨k1, k2⟩ := imgReadDir_of h2 hS
  refine ⟨ch, S, e1, hS, k1, k2, e2, fun c hc => alike_stored h4 e1 hS hc, fun d hd => alike_linked h4 e1 hS hd, ?_⟩
  intro d hd t' ht'
  obtain ⟨c, hc, hs⟩ := alike_linked h4 e1 hS hd
  obtain ⟨g1, g2⟩ := says_table hs
  have htc : c.node.dirent.direntTable = some t' := by rw [g1]; exact ht'
  refine ⟨?_, ?_, ?_, hE.2 _ (e2 c hc) t' htc⟩
  · have : d.node.dirent.isDirectory = true := by
      unfold DiskData.direntTable at ht'
      split at ht'
      · assumption
      · cases ht'
    exact DirOf.sub (e := fileEntryOf d) h1 k2 (List.mem_map_of_mem hd) this
  · rw [imgTable_snoc, k1]
    simp only [Res.ok_bind]
    rw [firstNamed_unique (hD p _ h1 k2) hd]
    simp only [Res.ofOption, Res.ok_bind]
    rw [ht']
  · have := e3 c hc t' htc
    rw [g2] at this
    simpa [slashPath] using this

theorem reached_dir {dev : Dev} {wf : Nat} {root : Region} {L : List (Str × DirEnt)}
    (hl : fileTree dev root wf = .ok L)
    (hE : EveryDir root L (ReadsAlike dev wf)) (hD : AllDistinct (imgReadDir dev wf root)) {p : Path}
    (hp : DirOf (imgReadDir dev wf root) p) : ∃ t, Reached dev wf root L p t := by
  induction hp with
  | root => exact ⟨root, .root, rfl, ⟨wf, _, _, List.mem_singleton.2 rfl, hl⟩, hE.1⟩
  | @sub q l e h1 h2 h3 h4 ih =>
    obtain ⟨t, ht⟩ := ih
    obtain ⟨ch, S, _, _, _, k2, _, _, _, k3⟩ := reached_step hE hD ht
    rw [h2] at k2
    obtain rfl := Res.ok.inj k2
    obtain ⟨d, hd, rfl⟩ := List.mem_map.1 h3
    have : d.node.dirent.direntTable = some d.node.dirent.data := by
      have h5 : d.node.dirent.isDirectory = true := h4
      unfold DiskData.direntTable; rw [if_pos h5]
    exact ⟨_, k3 d hd _ this⟩

theorem reached_below {dev : Dev} {wf : Nat} {root : Region} {L : List (Str × DirEnt)}
    (hE : EveryDir root L (ReadsAlike dev wf)) (hD : AllDistinct (imgReadDir dev wf root)) {q : Path} {t : Region} {d : DirEnt}
    (h : Below dev wf t q d) : ∀ p, Reached dev wf root L p t → ∃ t', Reached dev wf root L (p ++ q) t' ∧
      ∃ ch, walkDirentTree dev t' wf = .ok ch ∧ d ∈ ch := by
  induction h with
  | @here tab ch c h1 h2 => intro p hp; exact ⟨tab, by simpa using hp, ch, h1, h2⟩
  | @sub tab ch c t p' d h1 h2 h3 _ ih =>
    intro p hp
    obtain ⟨ch', S, e1, _, _, _, _, e2, _, e3⟩ := reached_step hE hD hp
    rw [h1] at e1
    obtain rfl := Res.ok.inj e1
    obtain ⟨x, hx, hs⟩ := e2 c h2
    obtain ⟨g1, g2⟩ := says_table hs
    have := ih _ (e3 x hx t (by rw [g1]; exact h3))
    rw [g2] at this
    simpa using this

/-- The entries that are listed and the entries that are packed. -/
theorem listed_iff {dev : Dev} {wf : Nat} {root : Region} {L : List (Str × DirEnt)}
    (hl : fileTree dev root wf = .ok L)
    (hE : EveryDir root L (ReadsAlike dev wf)) (hD : AllDistinct (imgReadDir dev wf root)) :
    (∀ x ∈ L, ∃ p S d, x.1 = slashPath p ∧ DirOf (imgReadDir dev wf root) p ∧ imgDirents dev wf root p = .ok S ∧ d ∈ S ∧
      saysOf d = saysOf x.2) ∧
    ∀ p S d, DirOf (imgReadDir dev wf root) p → imgDirents dev wf root p = .ok S → d ∈ S →
      ∃ c, (slashPath p, c) ∈ L ∧ saysOf c = saysOf d := by
  constructor
  · intro x hx
    rcases fileTreeLoop_below _ _ _ _ hl x hx with h | ⟨p0, t, q, h1, h2, h3⟩
    · cases h
    · rw [List.mem_singleton] at h1
      cases h1
      obtain ⟨t0, ht0⟩ := reached_dir hl hE hD .root
      obtain rfl := Res.ok.inj ht0.2.1
      obtain ⟨t', r1, ch, r2, r3⟩ := reached_below hE hD h3 [] ht0
      obtain ⟨ch', S, e1, _, e4, _, _, e2, _, _⟩ := reached_step hE hD r1
      rw [r2] at e1
      obtain rfl := Res.ok.inj e1
      obtain ⟨d, hd, hs⟩ := e2 _ r3
      exact ⟨_, S, d, by simpa using h2, r1.1, e4, hd, hs⟩
  · intro p S d hp hS hd
    obtain ⟨t, ht⟩ := reached_dir hl hE hD hp
    obtain ⟨ch, S', _, _, e4, _, e5, _, e6, _⟩ := reached_step hE hD ht
    rw [hS] at e4
    obtain rfl := Res.ok.inj e4
    obtain ⟨c, hc, hs⟩ := e6 d hd
    exact ⟨c, e5 c hc, hs⟩

/-- What the files of the packed tree contain. -/
def imgBytes (dev : Dev) (wf : Nat) (root : Region) (q : Path) : Bytes :=
  match imgDirents dev wf root q.dropLast with
  | .ok ds => match firstNamed ds (q.getLastD []) with
    | some d => match readDataAll dev d.node.dirent with
      | .ok b => b
      | _ => []
    | none => []
  | _ => []

theorem imgBytes_content {dev : Dev} {wf : Nat} {root : Region} {L : List (Str × DirEnt)}
    (hl : fileTree dev root wf = .ok L)
    (hE : EveryDir root L (ReadsAlike dev wf)) (hD : AllDistinct (imgReadDir dev wf root))
    (hr : ∀ x ∈ L, x.2.node.dirent.isDirectory = false → ∃ b, readDataAll dev x.2.node.dirent = .ok b) :
    ImgContent dev wf root (imgBytes dev wf root) := by
  intro p ds d hp hds hd hk
  obtain ⟨c, hc, hs⟩ := (listed_iff hl hE hD).2 p ds d hp hds hd
  obtain ⟨g1, _⟩ := says_table hs
  obtain ⟨b, hb⟩ := hr _ hc (by rw [g1]; exact hk)
  rw [g1] at hb
  have hrd : imgReadDir dev wf root p = .ok (ds.map fileEntryOf) := by unfold imgReadDir; rw [hds]; rfl
  unfold imgBytes
  simp only [List.dropLast_concat, hds]
  rw [show (p ++ [d.nameStr]).getLastD [] = d.nameStr by simp [List.getLastD_eq_getLast?],
    firstNamed_unique (hD p _ hp hrd) hd]
  simp only [hb]

theorem repack_distinct {copier : Copier} {faults : Faults} {wf fuel : Nat} {fs : ImgFs} {img0 : Bytes}
    {s' : PackState ImgFile} (hc : fs.cache = Trie.empty)
    (h : repackImage copier faults wf fuel fs ⟨⟨img0, []⟩, []⟩ = (.ok (), s')) :
    AllDistinct (imgReadDir fs.dev wf fs.vol.root) := by
  rcases repack_cases hc h with ⟨fs', h1, h2, h3⟩ | ⟨h1, _⟩
  · have hrd : (pureSource wf copier fs').readDir = imgReadDir fs.dev wf fs.vol.root := by
      simp only [pureSource]; rw [h1.dev, h1.vol]
    obtain ⟨D, M, rootW, rootSize, next, recs, n', hS⟩ := shape_of_success h3
    have hdist := PlanShape.allDistinct (fs := pureSource wf copier fs') hS
    rw [hrd] at hdist
    exact hdist
  · exact absurd rfl (h1 ())

end Xdvdfs
