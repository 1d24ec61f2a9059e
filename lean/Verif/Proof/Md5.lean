import Verif.Proof.Checksum
import Verif.Props.Dirtab

/-!
# Lemmas about the MD5 listing
-/

namespace Xdvdfs
open Spec

/-- Everything a located directory leads to is located. -/
theorem Img.located {rd : ReadDir} {content : Path → Bytes} {dev : Dev} {M : PathMap TabWriter}
    {Loc : Path → Listing → Prop} (h : Img rd content dev M Loc) {wf : Nat}
    (hwf : ∀ p lst, DirOf rd p → rd p = .ok lst → lst.length < wf) :
    ∀ (fuel : Nat) (S : List (Str × Region)) (acc L : List (Str × DirEnt)),
      (∀ x ∈ S, ∃ p l, Loc p l ∧ l.isDir = true ∧ x.2 = regionOf l) →
      (∀ x ∈ acc, ∃ p, Loc p (summary x.2)) →
      fileTreeLoop dev wf fuel S acc = .ok L → ∀ x ∈ L, ∃ p, Loc p (summary x.2) := by
  intro fuel
  induction fuel with
  | zero =>
    intro S acc L hS hacc hL
    cases S with
    | nil => simp only [fileTreeLoop, Res.ok.injEq] at hL; subst hL; intro x hx; exact hacc x (List.mem_reverse.1 hx)
    | cons s ss => simp [fileTreeLoop] at hL
  | succ fuel ih =>
    intro S acc L hS hacc hL
    cases S with
    | nil => simp only [fileTreeLoop, Res.ok.injEq] at hL; subst hL; intro x hx; exact hacc x (List.mem_reverse.1 hx)
    | cons s ss =>
      obtain ⟨parent, tab⟩ := s
      obtain ⟨p, l, hl, hd, he⟩ := hS (parent, tab) (by simp)
      simp only at he
      subst he
      obtain ⟨lst, ds, h1, h2, h3, h4, _⟩ := h.list_dir hl hd
      simp only [fileTreeLoop, h3 wf (hwf p lst h1 h2), Res.ok_bind] at hL
      refine ih _ _ L ?_ ?_ hL
      · intro x hx
        rcases List.mem_append.1 hx with hx | hx
        · rw [List.mem_reverse] at hx
          obtain ⟨c, hc, ht⟩ := List.mem_filterMap.1 hx
          unfold DiskData.direntTable at ht
          split at ht
          · next hdir =>
            simp only [Option.map_some, Option.some.injEq] at ht
            subst ht
            exact ⟨_, summary c, h4 c hc, hdir, (regionOf_summary c).symm⟩
          · cases ht
        · exact hS x (by simp [hx])
      · intro x hx
        rcases List.mem_append.1 hx with hx | hx
        · rw [List.mem_reverse] at hx
          obtain ⟨c, hc, rfl⟩ := List.mem_map.1 hx
          exact ⟨_, h4 c hc⟩
        · exact hacc x hx

/-- Everything located can be read. -/
theorem Img.readable {rd : ReadDir} {content : Path → Bytes} {dev : Dev} {M : PathMap TabWriter}
    {Loc : Path → Listing → Prop} (h : Img rd content dev M Loc) {p : Path} {d : DirEnt}
    (hl : Loc p (summary d)) : ∃ b, readDataAll dev d.node.dirent = .ok b := by
  obtain ⟨s1, s2⟩ := h.small _ _ hl
  cases hd : (summary d).isDir with
  | false =>
    obtain ⟨k1, k2⟩ := h.files _ _ hl hd
    exact ⟨_, readDataAll_holds (regionOf_summary d).symm s1 s2 k1 k2⟩
  | true =>
    obtain ⟨_, lst, w, r, n, n', _, _, h3, h4, ⟨h5, sz, h6, h7, h8⟩, _⟩ := h.dirs p _ hl hd
    obtain ⟨sz', g1, _, g2, _⟩ := Props.C22_size_agrees h3 h4
    rw [h6] at g1
    cases g1
    rw [regionOf_summary] at h5 h7 h8
    have := h5 0 d.node.dirent.data.size.toNat (by rw [g2, Nat.zero_add]; exact h8)
    unfold readDataAll
    split
    · exact ⟨_, rfl⟩
    · next hz =>
      have hpos : 0 < d.node.dirent.data.size.toNat := by
        rcases Nat.eq_zero_or_pos d.node.dirent.data.size.toNat with h | h
        · exact absurd (UInt32.toNat_inj.1 (by rw [h]; rfl)) hz
        · exact h
      rw [Region.offset_of_lt hpos]
      simp only [Res.ok_bind]
      exact ⟨_, this⟩

theorem md5Tree_eq {H : Type} (hash : Bytes → H) {dev : Dev} {base : Str} (read : DirEnt → Bytes) :
    ∀ (tree : List (Str × DirEnt)) (out : List (H × Str)),
    (∀ x ∈ tree, readDataAll dev x.2.node.dirent = .ok (read x.2)) →
    md5Tree hash dev base tree out = (.ok (), out ++ tree.map (fun x => (hash (read x.2),
      (if base = [] then x.1 else if x.1 = [] then base else base ++ '/' :: x.1) ++ '/' :: x.2.nameStr))) := by
  intro tree
  induction tree with
  | nil => intro out _; simp [md5Tree]
  | cons x xs ih =>
    intro out h
    simp only [md5Tree, h x (by simp)]
    rw [ih _ (fun y hy => h y (by simp [hy]))]
    simp

end Xdvdfs
