import Verif.Spec.WellFormed
import Verif.Proof.Lookup
import Verif.Proof.Repack
import Verif.Props.Dirtab

/-! Lemmas about well-formed images. -/

namespace Xdvdfs

open Res Spec TabWriter Props

theorem linked_branch {dev : Dev} {tab : Region} : ∀ {t : BT DirEnt} {lk : UInt16}, Linked dev tab lk t →
    Branch dev tab (target lk) t.inorder := by
  intro t
  induction t with
  | nil => intro lk h; have : lk = 0 := h; subst this; exact .nothing
  | node l d r ihl ihr =>
    intro lk h
    obtain ⟨h1, h2, h3, h4, h5, h6⟩ := h
    unfold target
    rw [if_pos ⟨h1, h2⟩]
    exact .entry ⟨h3, h4⟩ (ihl h5) (ihr h6)

theorem rooted_branch {dev : Dev} {tab : Region} {t : BT DirEnt} (h : Rooted dev tab t) :
    tab.size ≠ 0 ∧ Branch dev tab (some 0) t.inorder := by
  cases t with
  | nil => exact absurd h id
  | node l d r =>
    obtain ⟨h1, h2, h3, h4⟩ := h
    refine ⟨fun h => by rw [h] at h1; exact absurd h1 (by decide), ?_⟩
    exact .entry ⟨h1, h2⟩ (linked_branch h3) (linked_branch h4)

theorem linked_zero {dev : Dev} {tab : Region} : ∀ {t : BT DirEnt} {lk : UInt16}, Linked dev tab lk t →
    lk ≠ 0xffff ∧ ∀ d ∈ t.inorder, d.node.left ≠ 0xffff ∧ d.node.right ≠ 0xffff := by
  intro t
  induction t with
  | nil => intro lk h; have : lk = 0 := h; subst this; exact ⟨by decide, by simp [BT.inorder]⟩
  | node l d r ihl ihr =>
    intro lk h
    obtain ⟨_, h2, _, _, h5, h6⟩ := h
    obtain ⟨a1, a2⟩ := ihl h5
    obtain ⟨b1, b2⟩ := ihr h6
    refine ⟨h2, fun c hc => ?_⟩
    simp only [BT.inorder, List.mem_append, List.mem_cons] at hc
    rcases hc with hc | rfl | hc
    · exact a2 c hc
    · exact ⟨a1, b1⟩
    · exact b2 c hc

theorem rooted_zero {dev : Dev} {tab : Region} {t : BT DirEnt} (h : Rooted dev tab t) : ZeroLinks t.inorder := by
  cases t with
  | nil => exact absurd h id
  | node l d r =>
    obtain ⟨_, _, h3, h4⟩ := h
    obtain ⟨a1, a2⟩ := linked_zero h3
    obtain ⟨b1, b2⟩ := linked_zero h4
    intro c hc
    simp only [BT.inorder, List.mem_append, List.mem_cons] at hc
    rcases hc with hc | rfl | hc
    · exact a2 c hc
    · exact ⟨a1, b1⟩
    · exact b2 c hc

theorem holds_inside {img : Bytes} {o : Nat} {b : Bytes} (h : HoldsAt (fileDev img) o b) (hb : b ≠ []) :
    o + b.length ≤ img.length := by
  have := h 0 b.length (by omega)
  rw [Nat.add_zero, fileDev_read, fileRead] at this
  have hl : b.length ≠ 0 := fun h => hb (List.length_eq_zero_iff.1 h)
  rw [if_neg hl] at this
  split at this
  · assumption
  · cases this

theorem placed_good {items : List Item} {w : TabWriter} (hb : buildTable items = .ok w)
    {next next' : Nat} {r : DiskRepr} (hr : w.diskRepr next = .ok (r, next')) {img : Bytes} {tab : Region}
    (hP : Placed (fileDev img) tab w r) : GoodDir img tab := by
  obtain ⟨sz, hsz, hlt, hlen, _⟩ := C22_size_agrees hb hr
  obtain ⟨ds, ss, w1, w2, w3, _⟩ := C25_scan_agrees hb hr hP
  obtain ⟨hh, sz', e1, e2, e3⟩ := id hP
  rw [hsz] at e1
  obtain rfl := Res.ok.inj e1
  have hin : InsideImage img tab := by
    by_cases h0 : r.entryTable = []
    · left
      rw [h0] at hlen
      simp only [List.length_nil] at hlen
      have : tab.size.toNat = 0 := by omega
      exact UInt32.toNat_inj.1 this
    · right
      have := holds_inside hh h0
      omega
  have hal : ∃ n, ∀ fuel, n ≤ fuel → ReadsAlike (fileDev img) fuel tab := by
    refine ⟨items.length + 1, fun fuel hf => ⟨ds, ss, w1 fuel (by omega), w2 fuel (by omega), ?_⟩⟩
    have := w3.map (fun x : DiskNode × Bytes => (x.1.dirent, x.2))
    rw [List.map_map, List.map_map] at this
    exact this
  by_cases hi : items = []
  · subst hi
    obtain ⟨k1, k2, k3⟩ := placed_empty hb hr hP
    have hne : tab.size ≠ 0 := fun h => by rw [h] at k1; exact absurd k1 (by decide)
    refine ⟨hne, hin, ⟨[], ⟨?_, .nil⟩, by simp [ZeroLinks], by simp [Tidy]⟩, hal⟩
    rw [if_neg hne]
    exact .blank (by omega) k3
  · obtain ⟨t, ht⟩ := placed_tree hb hr hi hP hsz
    obtain ⟨g1, g2⟩ := rooted_branch ht.rooted
    refine ⟨g1, hin, ⟨t.inorder, ⟨by rw [if_neg g1]; exact g2, ht.sorted⟩, rooted_zero ht.rooted, ?_, ht.apart⟩, hal⟩
    intro d hd
    obtain ⟨o, o1, o2, o3, o4⟩ := ht.layout d hd
    exact ⟨o, o1, o2, o3, by omega⟩

theorem summary_region (d : DirEnt) : regionOf (summary d) = d.node.dirent.data := by
  simp [regionOf, summary]

theorem packed_below {fs : SourceFs} {content : Path → Bytes} {img : Bytes} {M : PathMap TabWriter}
    {Loc : Path → Listing → Prop} {l0 : Listing} (h : Packed fs content img M Loc l0) {wf : Nat} {t : Region} {q : Path}
    {d : DirEnt} (hb : Below (fileDev img) wf t q d) : ∀ p l, Loc p l → l.isDir = true → regionOf l = t →
      ∃ p', Loc p' (summary d) := by
  have step : ∀ {t : Region} {ch : List DirEnt} {c : DirEnt}, walkDirentTree (fileDev img) t wf = .ok ch → c ∈ ch →
      ∀ p l, Loc p l → l.isDir = true → regionOf l = t → Loc (p ++ [c.nameStr]) (summary c) := by
    intro t ch c h1 h2 p l hl hd ht
    subst ht
    obtain ⟨lst, ds, _, _, g1, g2, _⟩ := h.image.list_dir hl hd
    have e1 := walkDirentTree_mono (dev := fileDev img) (tab := regionOf l) (fuel := wf) (by rw [h1]; simp)
      (max wf (lst.length + 1)) (by omega)
    rw [h1, g1 _ (by omega)] at e1
    obtain rfl := Res.ok.inj e1
    exact g2 c h2
  induction hb with
  | here h1 h2 => intro p l hl hd ht; exact ⟨_, step h1 h2 p l hl hd ht⟩
  | @sub tab ch c t p' d h1 h2 h3 _ ih =>
    intro p l hl hd ht
    have hc := step h1 h2 p l hl hd ht
    have hk : c.node.dirent.isDirectory = true ∧ c.node.dirent.data = t := by
      unfold DiskData.direntTable at h3
      split at h3
      · exact ⟨by assumption, Option.some.inj h3⟩
      · cases h3
    exact ih _ _ hc hk.1 (by rw [summary_region, hk.2])

theorem packed_wellFormed {fs : SourceFs} {content : Path → Bytes} {img : Bytes} {M : PathMap TabWriter}
    {Loc : Path → Listing → Prop} {l0 : Listing} (h : Packed fs content img M Loc l0)
    (hH : HoldsTree (fileDev img) fs.readDir content) : WellFormed img := by
  obtain ⟨vol, v1, _, _, _, all, _, _, listed, f1, _⟩ := hH
  have hv := h.volume
  rw [v1] at hv
  obtain rfl := Res.ok.inj hv
  have good : ∀ p l, Loc p l → l.isDir = true → GoodDir img (regionOf l) := by
    intro p l hl hd
    obtain ⟨_, lst, w, r, n, n', _, _, g3, g4, g5, _⟩ := h.image.dirs p l hl hd
    exact placed_good g3 g4 g5
  have hloc : ∀ x ∈ listed, ∃ p, Loc p (summary x.2) := by
    intro x hx
    rcases fileTreeLoop_below _ _ _ _ (f1 (all.length + 2) (by omega)) x hx with h' | ⟨p0, t, q, h1, _, h3⟩
    · cases h'
    · rw [List.mem_singleton] at h1
      cases h1
      exact packed_below h h3 _ _ h.root h.rootDir rfl
  refine ⟨_, listed, all.length + 2, v1, fun fuel hf => f1 fuel (by omega), ⟨good _ _ h.root h.rootDir, ?_⟩, ?_⟩
  · intro x hx t ht
    obtain ⟨p, hp⟩ := hloc x hx
    have hk : x.2.node.dirent.isDirectory = true ∧ x.2.node.dirent.data = t := by
      unfold DiskData.direntTable at ht
      split at ht
      · exact ⟨by assumption, Option.some.inj ht⟩
      · cases ht
    have := good p _ hp hk.1
    rwa [summary_region, hk.2] at this
  · intro x hx
    obtain ⟨p, hp⟩ := hloc x hx
    by_cases hk : (summary x.2).isDir = true
    · have := (good p _ hp hk).inside
      rwa [summary_region] at this
    · obtain ⟨g1, g2⟩ := h.image.files p _ hp (by simpa using hk)
      by_cases h0 : content p = []
      · left
        rw [h0] at g1
        exact UInt32.toNat_inj.1 g1.symm
      · right
        have := holds_inside g2 h0
        rw [g1] at this
        exact this

end Xdvdfs
