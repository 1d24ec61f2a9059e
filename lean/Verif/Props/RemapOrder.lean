import Verif.Proof.RemapOrder
import Verif.Props.Remap

/-!
# C69: which of the mapped files are in the overlay
-/

namespace Xdvdfs.Props
open Xdvdfs Spec

theorem overlay_dirOf_prefix {readDir : Path → Res (List FileEntry)} {d : Path} (h : DirOf readDir d) :
    ∀ p, p <+: d → DirOf readDir p := by
  induction h with
  | root => intro p hp; rw [List.prefix_nil.1 hp]; exact .root
  | @sub q l e hq h1 h2 h3 ih =>
    intro p hp
    rcases List.prefix_concat_iff.1 hp with rfl | hp
    · exact .sub hq h1 h2 h3
    · exact ih p hp

/-- C69, exactly: `all` being the entries of the host in the order in which it is walked, the overlay lists a file at a
place if and only if, of all entries that the rules map there or below, the first is a file that is mapped to this very place, and
on no part of the way to it a file comes first that is mapped to that very part.  It lists the length of that file,
copies that file, and reports it.  So of several files mapped to the same place the first is kept; a file
mapped to a place where an earlier entry needs a directory is lost, and with a file in the way everything mapped below it. -/
theorem C69_exactly {G : GlobEngine} {rules : List Rule} {host : SourceFs} {fuel : Nat} {t : Trie MapEntry}
    (h : remapNew G rules host.readDir fuel = .ok t) : ∃ all, HostOrder host.readDir [[]] all ∧
      (∀ k d n len, t.size ≤ k → (EntryIn (remapFs host t k).readDir d ⟨n, false, len⟩ ↔
        (∃ path e, e.isDir = false ∧ e.len = len ∧ TakesFirst G rules all (d ++ [n]) path e (d ++ [n])) ∧
          ∀ p, p ≠ [] → p <+: d → ∀ path e, TakesFirst G rules all p path e p → e.isDir = true)) ∧
      ∀ k d n len path e, EntryIn (remapFs host t k).readDir d ⟨n, false, len⟩ →
        TakesFirst G rules all (d ++ [n]) path e (d ++ [n]) →
        (∀ off size, (remapFs host t k).copy (d ++ [n]) off size = host.copy path off size) ∧
          ∀ k' out, remapDump t k' = .ok out → (path, d ++ [n]) ∈ out := by
  obtain ⟨hw, all, ha, hl⟩ := RemapOrder.look_first h
  have hdirway : ∀ {k d}, DirOf (remapReadDir t k) d → ∀ p, p ≠ [] → p <+: d → ∀ path e,
      TakesFirst G rules all p path e p → e.isDir = true := by
    intro k d hd p h0 hp path e hf
    obtain ⟨_, h2⟩ := overlay_dir hw (overlay_dirOf_prefix hd p hp)
    rcases h2 with h2 | ⟨m, h2, h3⟩
    · exact absurd h2 h0
    · have h4 := (hl p h0 _).2 ⟨path, e, p, hf, rfl⟩
      rw [h2] at h4
      cases h4
      simpa [chainVal] using h3
  refine ⟨all, ha, ?_, ?_⟩
  · intro k d n len hk
    constructor
    · intro he
      obtain ⟨_, m, e1, e2, e3⟩ := overlay_entry hw he
      obtain ⟨path, e, q, f1, f2⟩ := (hl _ (by simp) _).1 e1
      refine ⟨?_, fun p h0 hp => hdirway he.1 p h0 hp⟩
      unfold chainVal at f2
      split at f2
      · rename_i hq
        rw [← hq] at f1
        subst f2
        exact ⟨path, e, e2.symm, e3.symm, f1⟩
      · subst f2
        exact absurd e2 (by simp)
    · rintro ⟨⟨path, e, g1, g2, g3⟩, hway⟩
      have hlook := (hl (d ++ [n]) (by simp) _).2 ⟨path, e, _, g3, rfl⟩
      obtain ⟨d', n', e1, e2⟩ := overlay_listed hw hk _ (d ++ [n]) _ rfl (by simp) hlook (by
        intro p h0 hp hne
        have hpd : p <+: d := by
          rcases List.prefix_concat_iff.1 hp with hp | hp
          · exact absurd hp hne
          · exact hp
        -- something is recorded at `p`, because the entry itself passes there
        have hex : ∃ m, Trie.look p t = some m := by
          obtain ⟨b, c, k1, k2, k3, _⟩ := id g3
          obtain ⟨path', e', q', f⟩ := RemapOrder.takes_exists (p := p) (x := (path, e)) (all := all) (by rw [k1]; simp) k2 hp
          exact ⟨_, (hl p h0 _).2 ⟨path', e', q', f, rfl⟩⟩
        obtain ⟨m, hm⟩ := hex
        refine ⟨m, hm, ?_⟩
        obtain ⟨path', e', q', f1, f2⟩ := (hl p h0 _).1 hm
        subst f2
        unfold chainVal
        split
        · rename_i hq
          rw [← hq] at f1
          exact hway p h0 hpd path' e' f1
        · rfl)
      obtain ⟨g4, g5⟩ := List.append_inj' e1 rfl
      simp only [List.cons.injEq, and_true] at g5
      subst g4 g5
      simp only [chainVal, if_true, g1, g2] at e2
      exact e2
  · intro k d n len path e he hf
    have hlook := (hl (d ++ [n]) (by simp) _).2 ⟨path, e, _, hf, rfl⟩
    simp only [chainVal, if_true] at hlook
    refine ⟨fun off size => remapCopy_look hw (by simp) hlook off size, ?_⟩
    intro k' out hd
    exact dump_complete hw hd he.1 hlook rfl

/-- The hypotheses of `C69_exactly` hold for two files mapped to the same place; the first of them is there. -/
example : ∃ t, remapNew literalGlobs conflictRules (flatFs [(['a'], [1]), (['b'], [2])]).readDir 10 = .ok t ∧
    ∃ all, HostOrder (flatFs [(['a'], [1]), (['b'], [2])]).readDir [[]] all ∧
      all.map Prod.fst = [[['a']], [['b']]] := by
  have hex : ∃ t, remapNew literalGlobs conflictRules (flatFs [(['a'], [1]), (['b'], [2])]).readDir 10 = .ok t := by
    rw [← isOk_iff]
    decide +kernel
  obtain ⟨t, ht⟩ := hex
  refine ⟨t, ht, _, .dir (l := [⟨['a'], false, 1⟩, ⟨['b'], false, 1⟩]) rfl .done, by decide⟩

end Xdvdfs.Props
