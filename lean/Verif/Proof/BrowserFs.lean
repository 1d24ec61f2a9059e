import Verif.Proof.Browser
import Verif.Proof.PathMap
import Verif.Proof.StdFs

/-!
# Folders of the browser
-/

namespace Xdvdfs

open Spec PM

/-! ## Names in order -/

theorem nameInsert_keys {α β : Type} {n : Str} (x : α) (y : β) : ∀ {l : List (Str × α)} {l' : List (Str × β)},
    l.map Prod.fst = l'.map Prod.fst → (nameInsert n x l).map Prod.fst = (nameInsert n y l').map Prod.fst := by
  intro l
  induction l with
  | nil => intro l' h; cases l' with
    | nil => rfl
    | cons a l' => simp at h
  | cons a l ih =>
    intro l' h
    cases l' with
    | nil => simp at h
    | cons a' l' =>
      simp only [List.map_cons, List.cons.injEq] at h
      obtain ⟨m, z⟩ := a
      obtain ⟨m', z'⟩ := a'
      simp only at h
      obtain ⟨rfl, h⟩ := h
      simp only [nameInsert]
      cases cmpStr n m <;> simp [h, ih h]

theorem nameInsert_mem {α : Type} {n : Str} {x : α} : ∀ {l : List (Str × α)} {y : Str × α}, y ∈ nameInsert n x l →
    y = (n, x) ∨ y ∈ l := by
  intro l
  induction l with
  | nil => intro y h; simpa [nameInsert] using h
  | cons a l ih =>
    intro y h
    obtain ⟨m, z⟩ := a
    simp only [nameInsert] at h
    split at h
    · simpa using h
    · rcases List.mem_cons.1 h with h | h
      · exact .inl h
      · exact .inr (by simp [h])
    · rcases List.mem_cons.1 h with h | h
      · exact .inr (by simp [h])
      · rcases ih h with h | h
        · exact .inl h
        · exact .inr (by simp [h])

theorem nameInsert_names {α : Type} {n : Str} {x : α} : ∀ {l : List (Str × α)} {m : Str},
    m ∈ (nameInsert n x l).map Prod.fst ↔ m = n ∨ m ∈ l.map Prod.fst := by
  intro l
  induction l with
  | nil => intro m; simp [nameInsert]
  | cons a l ih =>
    intro m
    obtain ⟨k, z⟩ := a
    simp only [nameInsert]
    split
    · simp
    · next h =>
      have := (cmpStr_eq_iff _ _).1 h
      subst this
      simp
    · simp only [List.map_cons, List.mem_cons, ih]
      constructor
      · rintro (h | h | h) <;> simp [h]
      · rintro (h | h | h) <;> simp [h]

/-- In the order of the names. -/
def StrSorted (l : List Str) : Prop := l.Pairwise (fun a b => cmpStr a b = .lt)

theorem nameInsert_sorted {α : Type} {n : Str} {x : α} : ∀ {l : List (Str × α)}, StrSorted (l.map Prod.fst) →
    StrSorted ((nameInsert n x l).map Prod.fst) := by
  intro l
  induction l with
  | nil => intro _; simp [nameInsert, StrSorted]
  | cons a l ih =>
    intro h
    obtain ⟨m, z⟩ := a
    unfold StrSorted at h ih ⊢
    simp only [List.map_cons, List.pairwise_cons] at h
    obtain ⟨h1, h2⟩ := h
    simp only [nameInsert]
    split
    · next hc =>
      simp only [List.map_cons, List.pairwise_cons]
      refine ⟨?_, h1, h2⟩
      intro k hk
      rcases List.mem_cons.1 hk with rfl | hk
      · exact hc
      · exact cmpStr_lt_trans hc (h1 k hk)
    · next hc =>
      have := (cmpStr_eq_iff _ _).1 hc
      subst this
      simp only [List.map_cons, List.pairwise_cons]
      exact ⟨h1, h2⟩
    · next hc =>
      simp only [List.map_cons, List.pairwise_cons]
      refine ⟨?_, ih h2⟩
      intro k hk
      rcases nameInsert_names.1 hk with rfl | hk
      · have := cmpStr_swap k m
        rw [hc] at this
        exact this.symm
      · exact h1 k hk

/-- Names in order, each once. -/
def sortNames (ns : List Str) : List Str := (ns.foldl (fun acc n => nameInsert n () acc) []).map Prod.fst

theorem sortFold_sorted : ∀ (ns : List Str) {acc : List (Str × Unit)}, StrSorted (acc.map Prod.fst) →
    StrSorted ((ns.foldl (fun acc n => nameInsert n () acc) acc).map Prod.fst) := by
  intro ns
  induction ns with
  | nil => intro acc h; exact h
  | cons n ns ih => intro acc h; exact ih (nameInsert_sorted h)

theorem sortFold_mem : ∀ (ns : List Str) {acc : List (Str × Unit)} {m : Str},
    m ∈ (ns.foldl (fun acc n => nameInsert n () acc) acc).map Prod.fst ↔ m ∈ ns ∨ m ∈ acc.map Prod.fst := by
  intro ns
  induction ns with
  | nil => intro acc m; simp
  | cons n ns ih =>
    intro acc m
    rw [List.foldl_cons, ih, nameInsert_names, List.mem_cons]
    constructor
    · rintro (h | h | h) <;> simp [h]
    · rintro ((h | h) | h) <;> simp [h]

theorem sortNames_sorted (ns : List Str) : StrSorted (sortNames ns) := sortFold_sorted ns (by simp [StrSorted])

theorem sortNames_mem {ns : List Str} {m : Str} : m ∈ sortNames ns ↔ m ∈ ns := by
  unfold sortNames
  rw [sortFold_mem]
  simp

theorem cmpStr_irrefl {a : Str} : cmpStr a a ≠ .lt := by
  rw [(cmpStr_eq_iff a a).2 rfl]; nofun

theorem sorted_nodup {l : List Str} (h : StrSorted l) : l.Nodup :=
  List.Pairwise.imp (fun h he => by rw [he] at h; exact cmpStr_irrefl h) h

/-- There is only one order. -/
theorem sorted_unique : ∀ {a b : List Str}, StrSorted a → StrSorted b → (∀ n, n ∈ a ↔ n ∈ b) → a = b := by
  intro a
  induction a with
  | nil =>
    intro b _ _ h
    cases b with
    | nil => rfl
    | cons y ys => exact absurd ((h y).2 (by simp)) (by simp)
  | cons x xs ih =>
    intro b ha hb h
    cases b with
    | nil => exact absurd ((h x).1 (by simp)) (by simp)
    | cons y ys =>
      unfold StrSorted at ha hb
      rw [List.pairwise_cons] at ha hb
      have hxy : x = y := by
        rcases List.mem_cons.1 ((h x).1 (by simp)) with h1 | h1
        · exact h1
        · rcases List.mem_cons.1 ((h y).2 (by simp)) with h2 | h2
          · exact h2.symm
          · exact absurd (cmpStr_lt_trans (ha.1 y h2) (hb.1 x h1)) cmpStr_irrefl
      subst hxy
      congr 1
      refine ih ha.2 hb.2 fun n => ?_
      have hx1 : x ∉ xs := fun hm => cmpStr_irrefl (ha.1 x hm)
      have hx2 : x ∉ ys := fun hm => cmpStr_irrefl (hb.1 x hm)
      constructor
      · intro hn
        rcases List.mem_cons.1 ((h n).1 (by simp [hn])) with rfl | h1
        · exact absurd hn hx1
        · exact h1
      · intro hn
        rcases List.mem_cons.1 ((h n).2 (by simp [hn])) with rfl | h1
        · exact absurd hn hx2
        · exact h1

/-! ## The tree of a folder -/

theorem populateLoop_ok {below : HostPath → Res WebTree} {p : HostPath} : ∀ (ns : List Str)
    {acc : List (Str × WebTree)} {acc' : List (Str × Unit)} {t : WebTree}, populateLoop below p ns acc = .ok t →
    acc.map Prod.fst = acc'.map Prod.fst → (∀ x ∈ acc, below (p ++ [x.1]) = .ok x.2) →
    ∃ es, t = .dir es ∧ es.map Prod.fst = (ns.foldl (fun acc n => nameInsert n () acc) acc').map Prod.fst ∧
      ∀ x ∈ es, below (p ++ [x.1]) = .ok x.2 := by
  intro ns
  induction ns with
  | nil => intro acc acc' t h h1 h2; cases h; exact ⟨acc, rfl, h1, h2⟩
  | cons n ns ih =>
    intro acc acc' t h h1 h2
    simp only [populateLoop] at h
    cases hb : below (p ++ [n]) with
    | ok t1 =>
      rw [hb] at h
      refine ih h (nameInsert_keys _ _ h1) ?_
      intro x hx
      rcases nameInsert_mem hx with rfl | hx
      · exact hb
      · exact h2 x hx
    | err e => rw [hb] at h; cases h
    | panic => rw [hb] at h; cases h
    | hang => rw [hb] at h; cases h

/-- What `populate` returns. -/
theorem populate_ok {b : Browser} {fs : HostFs} {fuel : Nat} {p : HostPath} {t : WebTree}
    (h : populate b fs fuel p = .ok t) : ((∃ d, fs p = some (.file d)) ∧ t = .file) ∨
      (fs p = some .dir ∧ ∃ es f, t = .dir es ∧ es.map Prod.fst = sortNames (b.names p) ∧
        ∀ x ∈ es, populate b fs f (p ++ [x.1]) = .ok x.2) := by
  cases fuel with
  | zero => cases h
  | succ fuel =>
    simp only [populate] at h
    split at h
    · next d hd => cases h; exact .inl ⟨⟨d, hd⟩, rfl⟩
    · next hd =>
      split at h
      · cases h
      · obtain ⟨es, h1, h2, h3⟩ := populateLoop_ok (acc' := []) _ h rfl (by simp)
        exact .inr ⟨hd, es, fuel, h1, h2, h3⟩
    · cases h

theorem nameGet_mem {α : Type} {n : Str} : ∀ {l : List (Str × α)} {x : α}, nameGet n l = some x → (n, x) ∈ l := by
  intro l
  induction l with
  | nil => intro x h; cases h
  | cons a l ih =>
    intro x h
    obtain ⟨m, y⟩ := a
    simp only [nameGet] at h
    split at h
    · next he => cases h; subst he; simp
    · exact List.mem_cons_of_mem _ (ih h)

theorem nameGet_some {α : Type} {n : Str} : ∀ {l : List (Str × α)}, n ∈ l.map Prod.fst → ∃ x, nameGet n l = some x := by
  intro l
  induction l with
  | nil => intro h; simp at h
  | cons a l ih =>
    intro h
    obtain ⟨m, y⟩ := a
    simp only [nameGet]
    split
    · exact ⟨y, rfl⟩
    · next hne =>
      simp only [List.map_cons, List.mem_cons] at h
      rcases h with h | h
      · exact absurd h hne
      · exact ih h

/-- A place in the tree is a place on the host. -/
theorem walk_ok {b : Browser} {fs : HostFs} : ∀ (p : Path) {fuel : Nat} {root : HostPath} {t t' : WebTree},
    populate b fs fuel root = .ok t → t.walk p = some t' → ∃ f, populate b fs f (root ++ p) = .ok t' := by
  intro p
  induction p with
  | nil =>
    intro fuel root t t' h hw
    have : t' = t := by cases t <;> (simp only [WebTree.walk] at hw; cases hw; rfl)
    subst this
    exact ⟨fuel, by simpa using h⟩
  | cons n p ih =>
    intro fuel root t t' h hw
    rcases populate_ok h with ⟨_, rfl⟩ | ⟨_, es, f, rfl, h2, h3⟩
    · simp [WebTree.walk] at hw
    · simp only [WebTree.walk] at hw
      split at hw
      · next t1 hg =>
        obtain ⟨f', h'⟩ := ih (h3 _ (nameGet_mem hg)) hw
        exact ⟨f', by simpa using h'⟩
      · cases hw

/-- A place on the host that can be listed is in the tree. -/
theorem walk_append : ∀ (p q : Path) (t : WebTree), t.walk (p ++ q) = (t.walk p).bind (fun t => t.walk q) := by
  intro p
  induction p with
  | nil => intro q t; cases t <;> simp [WebTree.walk]
  | cons n p ih =>
    intro q t
    cases t with
    | file => simp [WebTree.walk]
    | dir es =>
      simp only [List.cons_append, WebTree.walk]
      cases nameGet n es with
      | none => rfl
      | some t => exact ih q t

/-! ## A folder of the browser is a directory that is listed in the order of its names -/

/-- A reader that lists directories in the order of the names. -/
def nameOrder (b : Browser) : DirReader where
  names := fun d => sortNames (b.names d)
  dirLen := fun _ => 0
  special := fun _ => false
  split := fun x => [x]

variable {b : Browser} {fs : HostFs} {root : HostPath} {t : WebTree} {fuel : Nat}

theorem getFile_some {p : HostPath} {d : Bytes} (h : getFile b fs p = some d) : fs p = some (.file d) ∧ b.noRead p = false := by
  unfold getFile at h
  split at h
  · cases h
  · next hn =>
    split at h
    · next hd => cases h; exact ⟨hd, by simpa using hn⟩
    · cases h

theorem webEntry_ok {dir : HostPath} {x : Str × WebTree} {e : FileEntry} {f : Nat}
    (hp : populate b fs f (dir ++ [x.1]) = .ok x.2) (h : webEntry b fs dir x = .ok e) :
    stdEntry (nameOrder b) fs dir x.1 = .ok e := by
  unfold webEntry at h
  unfold stdEntry
  simp only [nameOrder, Bool.false_eq_true, if_false]
  rcases populate_ok hp with ⟨⟨d, hd⟩, ht⟩ | ⟨hd, es, _, ht, _⟩
  · rw [ht] at h
    simp only at h
    split at h
    · next d' hg =>
      cases h
      rw [(getFile_some hg).1]
    · cases h
  · rw [ht] at h
    cases h
    rw [hd]

theorem webEntries_ok {dir : HostPath} {f : Nat} : ∀ {es : List (Str × WebTree)} {l : List FileEntry},
    (∀ x ∈ es, populate b fs f (dir ++ [x.1]) = .ok x.2) → webEntries b fs dir es = .ok l →
    stdEntries (nameOrder b) fs dir (es.map Prod.fst) = .ok l := by
  intro es
  induction es with
  | nil => intro l _ h; cases h; rfl
  | cons x es ih =>
    intro l hp h
    simp only [webEntries] at h
    obtain ⟨e, h1, h⟩ := Res.bind_eq_ok.1 h
    obtain ⟨l', h2, h⟩ := Res.bind_eq_ok.1 h
    cases h
    simp only [List.map_cons, stdEntries]
    rw [webEntry_ok (hp x (by simp)) h1, Res.ok_bind, ih (fun y hy => hp y (by simp [hy])) h2]
    rfl

/-- What is listed is what a directory that is listed in the order of its names lists. -/
theorem web_readDir_ok (ht : populate b fs fuel root = .ok t) {p : Path} {l : List FileEntry}
    (h : webReadDir b fs root t p = .ok l) : stdReadDir (nameOrder b) fs root p = .ok l := by
  unfold webReadDir at h
  split at h
  · cases h
  · cases h
  · next es hw =>
    obtain ⟨f, hf⟩ := walk_ok p ht hw
    rcases populate_ok hf with ⟨_, hx⟩ | ⟨hd, es', f', he, h2, h3⟩
    · cases hx
    · cases he
      unfold stdReadDir
      rw [hd]
      simp only
      have := webEntries_ok h3 h
      rw [h2] at this
      exact this

/-- The files in the folder can be read. -/
def Readable (b : Browser) (fs : HostFs) (root : HostPath) : Prop :=
  ∀ q d, fs (root ++ q) = some (.file d) → b.noRead (root ++ q) = false

theorem webEntries_total {dir : HostPath} {f : Nat} : ∀ {es : List (Str × WebTree)},
    (∀ x ∈ es, populate b fs f (dir ++ [x.1]) = .ok x.2) →
    (∀ n d, fs (dir ++ [n]) = some (.file d) → b.noRead (dir ++ [n]) = false) →
    ∃ l, webEntries b fs dir es = .ok l := by
  intro es
  induction es with
  | nil => intro _ _; exact ⟨_, rfl⟩
  | cons x es ih =>
    intro hp hr
    obtain ⟨l, hl⟩ := ih (fun y hy => hp y (by simp [hy])) hr
    have he : ∃ e, webEntry b fs dir x = .ok e := by
      unfold webEntry
      rcases populate_ok (hp x (by simp)) with ⟨⟨d, hd⟩, hx⟩ | ⟨hd, es, _, hx, _⟩
      · rw [hx]
        simp only
        unfold getFile
        rw [hr _ d hd, hd]
        exact ⟨_, rfl⟩
      · rw [hx]; exact ⟨_, rfl⟩
    obtain ⟨e, he⟩ := he
    refine ⟨e :: l, ?_⟩
    simp only [webEntries]
    rw [he, Res.ok_bind, hl]
    rfl

theorem webEntries_sub {dir : HostPath} : ∀ {es : List (Str × WebTree)} {l : List FileEntry} {e : FileEntry},
    webEntries b fs dir es = .ok l → e ∈ l → e.name ∈ es.map Prod.fst := by
  intro es
  induction es with
  | nil => intro l e h he; cases h; cases he
  | cons x es ih =>
    intro l e h he
    simp only [webEntries] at h
    obtain ⟨e1, h1, h⟩ := Res.bind_eq_ok.1 h
    obtain ⟨l', h2, h⟩ := Res.bind_eq_ok.1 h
    cases h
    rcases List.mem_cons.1 he with rfl | he
    · refine List.mem_cons.2 (.inl ?_)
      unfold webEntry at h1
      split at h1
      · split at h1 <;> cases h1; rfl
      · cases h1; rfl
    · exact List.mem_cons_of_mem _ (ih h2 he)

/-- A directory of the source is a directory in the tree. -/
theorem web_dir_walk (ht : populate b fs fuel root = .ok t) (hroot : fs root = some .dir) {p : Path}
    (h : DirOf (webReadDir b fs root t) p) : ∃ es, t.walk p = some (.dir es) := by
  have up : ∀ {p t'}, t.walk p = some t' → fs (root ++ p) = some .dir → ∃ es, t' = .dir es := by
    intro p t' hw hd
    obtain ⟨f, hf⟩ := walk_ok p ht hw
    rcases populate_ok hf with ⟨⟨d, hx⟩, _⟩ | ⟨_, es, _, he, _⟩
    · rw [hd] at hx; cases hx
    · exact ⟨es, he⟩
  induction h with
  | root =>
    obtain ⟨es, he⟩ := up (p := []) (t' := t) (by cases t <;> rfl) (by simpa using hroot)
    exact ⟨es, by subst he; rfl⟩
  | @sub p l e h1 h2 h3 h4 ih =>
    obtain ⟨es, hes⟩ := ih
    have hstd := web_readDir_ok ht h2
    have hst := (stdEntry_ok ((stdReadDir_ok hstd).2.2 e h3)).2.2
    rcases hst with ⟨_, hd⟩ | ⟨hf, _⟩
    · rw [List.append_assoc] at hd
      unfold webReadDir at h2
      rw [hes] at h2
      simp only at h2
      obtain ⟨t', ht'⟩ := nameGet_some (webEntries_sub h2 h3)
      have hw : t.walk (p ++ [e.name]) = some t' := by
        rw [walk_append, hes]
        simp only [Option.bind_some, WebTree.walk]
        rw [ht']
      obtain ⟨es', he'⟩ := up hw hd
      exact ⟨es', by rw [hw, he']⟩
    · rw [h4] at hf; cases hf

theorem web_readDir_eq (ht : populate b fs fuel root = .ok t) (hroot : fs root = some .dir) (hr : Readable b fs root)
    {p : Path} (h : DirOf (webReadDir b fs root t) p) :
    ∃ l, webReadDir b fs root t p = .ok l ∧ stdReadDir (nameOrder b) fs root p = .ok l := by
  obtain ⟨es, hes⟩ := web_dir_walk ht hroot h
  obtain ⟨f, hf⟩ := walk_ok p ht hes
  rcases populate_ok hf with ⟨_, hx⟩ | ⟨hd, es', f', he, h2, h3⟩
  · cases hx
  · cases he
    obtain ⟨l, hl⟩ := webEntries_total h3 (fun n d hd => by
      rw [List.append_assoc] at hd ⊢; exact hr _ d hd)
    have hw : webReadDir b fs root t p = .ok l := by
      unfold webReadDir
      rw [hes]
      exact hl
    exact ⟨l, hw, web_readDir_ok ht hw⟩

theorem dirOf_mono {rd rd' : Path → Res (List FileEntry)} (h : ∀ p, DirOf rd p → ∀ l, rd p = .ok l → rd' p = .ok l) {p : Path}
    (hp : DirOf rd p) : DirOf rd' p := by
  induction hp with
  | root => exact .root
  | sub h1 h2 h3 h4 ih => exact .sub ih (h _ h1 _ h2) h3 h4

theorem entryIn_mono {rd rd' : Path → Res (List FileEntry)} (h : ∀ p, DirOf rd p → ∀ l, rd p = .ok l → rd' p = .ok l) {p : Path}
    {e : FileEntry} (he : EntryIn rd p e) : EntryIn rd' p e :=
  ⟨dirOf_mono h he.1, he.2.imp fun l hl => ⟨h p he.1 l hl.1, hl.2⟩⟩

theorem dirOf_back {rd rd' : Path → Res (List FileEntry)} (h : ∀ p, DirOf rd p → ∃ l, rd p = .ok l ∧ rd' p = .ok l)
    {p : Path} (hp : DirOf rd' p) : DirOf rd p := by
  induction hp with
  | root => exact .root
  | @sub p l e h1 h2 h3 h4 ih =>
    obtain ⟨l', k1, k2⟩ := h p ih
    rw [h2] at k2
    cases k2
    exact .sub ih k1 h3 h4

theorem entryIn_back {rd rd' : Path → Res (List FileEntry)} (h : ∀ p, DirOf rd p → ∃ l, rd p = .ok l ∧ rd' p = .ok l)
    {p : Path} {e : FileEntry} (he : EntryIn rd' p e) : EntryIn rd p e := by
  have hp := dirOf_back h he.1
  obtain ⟨l, k1, k2⟩ := h p hp
  obtain ⟨l', k3, k4⟩ := he.2
  rw [k2] at k3
  cases k3
  exact ⟨hp, l, k1, k4⟩

theorem web_entry_std (ht : populate b fs fuel root = .ok t) {p : Path} {e : FileEntry}
    (he : EntryIn (webFs b fs root t).readDir p e) : EntryIn (stdFs (nameOrder b) fs root).readDir p e :=
  entryIn_mono (fun _ _ _ hl => web_readDir_ok ht hl) he

theorem web_bounded : Bounded (webFs b fs root t) := by
  intro p n
  show ((webCopy b fs root t p 0 n).1).flatten.length ≤ n
  unfold webCopy
  split
  · split
    · split <;> simp
      omega
    · simp
  · simp

theorem web_copy_ok {p : Path} {n k : Nat} (h : (webCopy b fs root t p 0 n).2 = .ok k) :
    ∃ d, fs (root ++ p) = some (.file d) ∧ (webCopy b fs root t p 0 n).1 = [d.take n] ∧ n ≤ d.length := by
  unfold webCopy at h ⊢
  split at h
  · split at h
    · next d hd =>
      split at h
      · next hl =>
        simp only [if_pos hl]
        refine ⟨d, (getFile_some hd).1, by simp, ?_⟩
        simp only [List.drop_zero, List.length_take] at hl
        omega
      · cases h
    · cases h
  · cases h

theorem web_faithful (ht : populate b fs fuel root = .ok t) : FaithfulTo (webFs b fs root t) (stdContent fs root) := by
  intro p e k he hd hok
  obtain ⟨d, h1, h2, _⟩ := web_copy_ok hok
  rcases std_entry_host (web_entry_std ht he) with ⟨h, _⟩ | ⟨_, d', h', hlen⟩
  · rw [hd] at h; cases h
  · rw [h1] at h'
    cases h'
    have hc : stdContent fs root (p ++ [e.name]) = d := by unfold stdContent; rw [h1]
    rw [hc]
    refine ⟨?_, hlen.symm⟩
    show (webCopy b fs root t (p ++ [e.name]) 0 e.len).1.flatten = d
    rw [h2, hlen]
    simp

end Xdvdfs
