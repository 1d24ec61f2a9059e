import Verif.Spec.StdFs
import Verif.Spec.Pack

/-!
# Reading a directory of the host
-/

namespace Xdvdfs

open Spec

/-- The bytes of a file below the root. -/
def stdContent (fs : HostFs) (root : HostPath) (p : Path) : Bytes :=
  match fs (root ++ p) with
  | some (.file data) => data
  | _ => []

variable {r : DirReader} {fs : HostFs} {root : HostPath}

theorem stdEntry_ok {dir : HostPath} {n : Str} {e : FileEntry} (h : stdEntry r fs dir n = .ok e) :
    e.name = n ∧ r.special (dir ++ [n]) = false ∧
    ((e.isDir = true ∧ fs (dir ++ [n]) = some .dir) ∨
     (e.isDir = false ∧ ∃ data, fs (dir ++ [n]) = some (.file data) ∧ e.len = data.length)) := by
  unfold stdEntry at h
  split at h
  · cases h
  · next hs =>
    have hs : r.special (dir ++ [n]) = false := by simpa using hs
    split at h
    · next hd => cases h; exact ⟨rfl, hs, .inl ⟨rfl, hd⟩⟩
    · next data hd => cases h; exact ⟨rfl, hs, .inr ⟨rfl, data, hd, rfl⟩⟩
    · cases h

theorem stdEntries_ok {dir : HostPath} : ∀ {ns : List Str} {l : List FileEntry}, stdEntries r fs dir ns = .ok l →
    l.map FileEntry.name = ns ∧ ∀ e ∈ l, stdEntry r fs dir e.name = .ok e := by
  intro ns
  induction ns with
  | nil => intro l h; cases h; exact ⟨rfl, by simp⟩
  | cons n ns ih =>
    intro l h
    simp only [stdEntries] at h
    obtain ⟨e, h1, h⟩ := Res.bind_eq_ok.1 h
    obtain ⟨es, h2, h⟩ := Res.bind_eq_ok.1 h
    cases h
    obtain ⟨i1, i2⟩ := ih h2
    have hn := (stdEntry_ok h1).1
    refine ⟨by rw [List.map_cons, i1, hn], ?_⟩
    intro x hx
    rcases List.mem_cons.1 hx with rfl | hx
    · rw [hn]; exact h1
    · exact i2 x hx

theorem stdReadDir_ok {p : Path} {l : List FileEntry} (h : stdReadDir r fs root p = .ok l) :
    fs (root ++ p) = some .dir ∧ l.map FileEntry.name = r.names (root ++ p) ∧
    ∀ e ∈ l, stdEntry r fs (root ++ p) e.name = .ok e := by
  unfold stdReadDir at h
  split at h
  · next hd => exact ⟨hd, stdEntries_ok h⟩
  · cases h

/-- An entry of the source is there on the host. -/
theorem std_entry_host {p : Path} {e : FileEntry} (h : EntryIn (stdFs r fs root).readDir p e) :
    (e.isDir = true ∧ fs (root ++ (p ++ [e.name])) = some .dir) ∨
    (e.isDir = false ∧ ∃ data, fs (root ++ (p ++ [e.name])) = some (.file data) ∧ e.len = data.length) := by
  obtain ⟨_, l, hl, he⟩ := h
  have := (stdEntry_ok ((stdReadDir_ok hl).2.2 e he)).2.2
  rwa [List.append_assoc] at this

theorem std_dir_host {p : Path} (hroot : fs root = some .dir) (h : DirOf (stdFs r fs root).readDir p) :
    fs (root ++ p) = some .dir := by
  cases h with
  | root => simpa using hroot
  | @sub p l e h1 h2 h3 h4 =>
    rcases std_entry_host (r := r) ⟨h1, l, h2, h3⟩ with ⟨_, h⟩ | ⟨h, _⟩
    · exact h
    · rw [h4] at h; cases h

/-- What is there on the host is an entry of the source, if the source can be listed. -/
theorem std_host_entry (hr : ReadsHost r fs) (hw : WellFormedHost fs)
    (hL : Listable (stdFs r fs root).readDir) : ∀ (n : Nat) {q : Path}, q.length = n → q ≠ [] →
    fs (root ++ q) ≠ none → ∃ p e, EntryIn (stdFs r fs root).readDir p e ∧ q = p ++ [e.name] := by
  intro n
  induction n with
  | zero => intro q hl hq; exact absurd (List.length_eq_zero_iff.1 hl) hq
  | succ n ih =>
    intro q hl hq hf
    obtain ⟨p, c, rfl⟩ : ∃ p c, q = p ++ [c] := ⟨q.dropLast, q.getLast hq, (List.dropLast_concat_getLast hq).symm⟩
    have hpl : p.length = n := by simpa using hl
    rw [← List.append_assoc] at hf
    have hpd := hw.2 _ _ hf
    have hd : DirOf (stdFs r fs root).readDir p := by
      by_cases hp : p = []
      · subst hp; exact .root
      · obtain ⟨p', e, he, rfl⟩ := ih hpl hp (by rw [hpd]; nofun)
        rcases std_entry_host he with ⟨h, _⟩ | ⟨_, data, h, _⟩
        · exact .sub he.1 he.2.choose_spec.1 he.2.choose_spec.2 h
        · rw [hpd] at h; cases h
    obtain ⟨l, hl'⟩ := hL p hd
    have hc : c ∈ r.names (root ++ p) := ((hr.1 _).2 c).2 (.inl hf)
    rw [← (stdReadDir_ok hl').2.1] at hc
    obtain ⟨e, he, rfl⟩ := List.mem_map.1 hc
    exact ⟨p, e, ⟨hd, l, hl', he⟩, rfl⟩

theorem std_bounded (hs : ∀ b, (r.split b).flatten = b) : Bounded (stdFs r fs root) := by
  intro p n
  show ((stdCopy r fs root p 0 n).1).flatten.length ≤ n
  unfold stdCopy
  split
  · rw [hs]; simp only [List.length_take]; omega
  · simp

theorem std_faithful (hs : ∀ b, (r.split b).flatten = b) : FaithfulTo (stdFs r fs root) (stdContent fs root) := by
  intro p e k he hd _
  rcases std_entry_host he with ⟨h, _⟩ | ⟨_, data, h, hlen⟩
  · rw [hd] at h; cases h
  · have hc : stdContent fs root (p ++ [e.name]) = data := by unfold stdContent; rw [h]
    rw [hc, hlen]
    refine ⟨?_, rfl⟩
    show (stdCopy r fs root (p ++ [e.name]) 0 data.length).1.flatten = data
    unfold stdCopy
    rw [h]
    simp [hs]

/-- What was restored from the source is what is on the host. -/
theorem treeAt_same (hr : ReadsHost r fs) (hw : WellFormedHost fs) (hL : Listable (stdFs r fs root).readDir)
    {fs' : HostFs} {D : HostPath} (h : TreeAt fs' D (stdFs r fs root).readDir (stdContent fs root)) :
    SameBelow fs' D fs root := by
  intro q hq
  have key : ∀ p e, EntryIn (stdFs r fs root).readDir p e → fs' (D ++ (p ++ [e.name])) = fs (root ++ (p ++ [e.name])) := by
    intro p e he
    rcases std_entry_host he with ⟨h1, h2⟩ | ⟨h1, data, h2, _⟩
    · rw [h2, ← List.append_assoc]; exact h.1 p e he h1
    · have := h.2.1 p e he h1
      rw [List.append_assoc] at this
      rw [this, h2]
      unfold stdContent
      rw [h2]
  by_cases hf : fs (root ++ q) = none
  · by_cases hf' : fs' (D ++ q) = none
    · rw [hf, hf']
    · obtain ⟨p, e, he, rfl⟩ := h.2.2 q hq hf'
      exact key p e he
  · obtain ⟨p, e, he, rfl⟩ := std_host_entry hr hw hL _ rfl hq hf
    exact key p e he

end Xdvdfs
