import Verif.Props.Layout
import Verif.Proof.Show
import Verif.Proof.PackTotal
import Verif.Spec.Length

/-! # Lemmas for the length of an image -/

namespace Xdvdfs.ImageLength

open Xdvdfs Spec TabWriter

theorem total_ge : ∀ (ls : List Nat) (pos : Nat), pos + ls.sum ≤ total pos ls := by
  intro ls
  induction ls with
  | nil => intro pos; simp [total]
  | cons l ls ih =>
    intro pos
    have h1 := ih (place pos l + l)
    have h2 := le_place pos l
    simp only [total, List.sum_cons]
    omega

theorem total_one : ∀ {ls : List Nat} {pos : Nat}, (∀ l ∈ ls, 0 < l) → pos + ls.sum ≤ 2048 →
    total pos ls = pos + ls.sum := by
  intro ls
  induction ls with
  | nil => intro pos _ _; simp [total]
  | cons l ls ih =>
    intro pos hl h
    have h0 := hl l (by simp)
    simp only [List.sum_cons] at h
    have hp : place pos l = pos := (place_spec h0).1 (by
      rcases Nat.lt_or_ge pos 2048 with hlt | hge
      · left; rw [Nat.mod_eq_of_lt hlt]; omega
      · omega)
    simp only [total, List.sum_cons, hp]
    rw [ih (fun x hx => hl x (by simp [hx])) (by omega)]
    omega

/-- The size of a table. -/
theorem buildTable_size {items : List Item} {w : TabWriter} (hb : buildTable items = .ok w) {n : Nat}
    (hn : w.dirtabSize = .ok n) {t : Nat} (ht : (items.map (fun it => elen it.name.length)).sum = t) :
    0 < n ∧ t ≤ n ∧ (t ≤ 2048 → n ≤ 2048) := by
  obtain ⟨w0, T, hI, hc, htree⟩ := buildTable_inv hb
  have hn' := hn
  unfold dirtabSize at hn
  split at hn
  · next he =>
    cases hn
    have := hI.data
    rw [← htree, he] at this
    have hi : items = [] := by
      simp only [List.map_nil] at this
      exact List.map_eq_nil_iff.1 this.symm
    subst hi
    simp at ht
    omega
  · next he =>
    obtain ⟨_, lens, h1, h2, _⟩ := computeSize_ok hI.wf hc
    rw [h2] at hn
    cases hn
    obtain ⟨ns, _, h3⟩ := Rep.nodes hI.wf.zip.rep
    have h4 := h1 ns h3
    have h6 : lens.sum = t := by
      rw [← ht, lensOnDisk_sum h4]
      have hp : (ns.map AvlNode.data).Perm (items.map itemData) := by rw [h3]; exact hI.preorder_perm
      have hq := hp.map (fun d => elen d.name.length)
      rw [List.map_map, List.map_map] at hq
      exact List.Perm.sum_nat hq
    have hf := (lensOnDisk_forall h4).2
    have hge := total_ge lens 0
    refine ⟨?_, by omega, ?_⟩
    · have hne : items ≠ [] := by
        intro hi
        subst hi
        have := hI.data
        rw [← htree] at this
        simp at this
        exact he this
      obtain ⟨it, its, rfl⟩ := List.exists_cons_of_ne_nil hne
      simp only [List.map_cons, List.sum_cons] at ht
      have : 16 ≤ elen it.name.length ∨ elen it.name.length = 0 := by unfold elen; omega
      have : 0 < elen it.name.length := by unfold elen; omega
      omega
    · intro hle
      rw [total_one (fun l hl => by have := hf l hl; omega) (by omega)]
      omega

/-! ## Sums over places -/

theorem adjoining_end : ∀ {places : List Place} {s e : Nat}, Adjoining s places e →
    e = s + (places.map (fun x => sectorsFor x.size)).sum := by
  intro places
  induction places with
  | nil => intro s e h; simp only [Adjoining] at h; simp [h]
  | cons x xs ih =>
    intro s e h
    have := ih h.2
    simp only [List.map_cons, List.sum_cons]
    omega

theorem place_stop_le (x : Place) : x.stop ≤ 2048 * (x.sector + sectorsFor x.size) := by
  unfold Place.stop sectorsFor roundUp
  split <;> omega

theorem adjoining_stop : ∀ {places : List Place} {s e : Nat}, Adjoining s places e →
    ∀ x ∈ places, x.stop ≤ 2048 * e := by
  intro places
  induction places with
  | nil => intro s e _ x hx; cases hx
  | cons y ys ih =>
    intro s e h x hx
    rcases List.mem_cons.1 hx with rfl | hx
    · have h1 := place_stop_le x
      have h2 := adjoining_end h.2
      rw [h.1] at h1
      omega
    · exact ih h.2 x hx

theorem adjoining_needs {n : Nat} : ∀ {places : List Place} {s e : Nat}, Adjoining s places e →
    (∀ x ∈ places, x.size ≠ 0 → x.stop ≤ n) →
    (places.map (fun x => (x.size + 2047) / 2048)).sum = 0 ∨
      s + (places.map (fun x => (x.size + 2047) / 2048)).sum ≤ (n + 2047) / 2048 := by
  intro places
  induction places with
  | nil => intro s e _ _; exact .inl rfl
  | cons x xs ih =>
    intro s e h hr
    have h1 := ih h.2 (fun y hy => hr y (by simp [hy]))
    simp only [List.map_cons, List.sum_cons]
    by_cases hx : x.size = 0
    · rcases h1 with h1 | h1
      · left; omega
      · right; omega
    · right
      have h2 := hr x (by simp) hx
      have h3 : 2048 * s + x.size ≤ x.stop := by
        unfold Place.stop roundUp
        rw [h.1]
        split <;> omega
      unfold sectorsFor at h1
      rcases h1 with h1 | h1 <;> omega

theorem sum_split {α : Type} (p : α → Bool) (f : α → Nat) : ∀ (l : List α),
    (l.map f).sum = ((l.filter p).map f).sum + ((l.filter (fun x => !p x)).map f).sum := by
  intro l
  induction l with
  | nil => rfl
  | cons x xs ih =>
    simp only [List.map_cons, List.sum_cons, List.filter_cons]
    cases p x <;> simp <;> omega

theorem sum_add {α : Type} (f g : α → Nat) : ∀ (l : List α),
    (l.map (fun x => f x + g x)).sum = (l.map f).sum + (l.map g).sum := by
  intro l
  induction l with
  | nil => rfl
  | cons x xs ih => simp only [List.map_cons, List.sum_cons, ih]; omega

theorem sum_flatMap {α β : Type} (g : α → List β) (f : β → Nat) : ∀ (l : List α),
    ((l.flatMap g).map f).sum = (l.map (fun x => ((g x).map f).sum)).sum := by
  intro l
  induction l with
  | nil => rfl
  | cons x xs ih => simp only [List.flatMap_cons, List.map_append, List.sum_append, List.map_cons, List.sum_cons, ih]

end Xdvdfs.ImageLength
