import Verif.Proof.Names

/-!
# C03, C04: file names
-/

namespace Xdvdfs

/-- **C03** (table).  A stored byte decodes to its Windows-1252 character. -/
theorem C03_decode_is_windows1252 (bs : Bytes) :
    decodeName bs = bs.map (fun b => Spec.cp1252Char b.toNat) := by
  simp only [decodeName]
  apply List.map_congr_left
  intro b _
  exact decodeByte_eq_spec b

/-- **C03** (round trip).  A name that is accepted decodes to itself, is stored in at most 255
bytes, and conversely any stored name of at most 255 bytes re-encodes to the same bytes. -/
theorem C03_name_roundtrip :
    (∀ (name : Str) (bs : Bytes), encodeName name = .ok bs → decodeName bs = name ∧ bs.length ≤ 255) ∧
    (∀ bs : Bytes, bs.length ≤ 255 → encodeName (decodeName bs) = .ok bs) := by
  refine ⟨fun name bs h => ⟨encodeName_decode h, (encodeName_ok h).2⟩, fun bs h => ?_⟩
  simp [encodeName, encodeChars_decodeName, h]

/-- **C03** (failures).  Encoding fails, with `StringEncodingError`, exactly when some character
has no Windows-1252 code or the name has more than 255 characters. -/
theorem C03_name_encoding_fails_iff (name : Str) :
    ((∃ bs, encodeName name = .ok bs) ∨ encodeName name = .err .stringEncoding) ∧
    (encodeName name = .err .stringEncoding ↔
      (∃ c ∈ name, ¬ Spec.InCp1252 c) ∨ 255 < name.length) := by
  have key (c : Char) : encodeChar c = none ↔ ¬ Spec.InCp1252 c := by
    constructor
    · rintro h ⟨b, hb, hc⟩
      have : decodeByte (UInt8.ofNat b) = c := by
        rw [decodeByte_eq_spec, UInt8.toNat_ofNat_of_lt' hb]; exact hc
      rw [← this, encodeChar_decodeByte] at h; cases h
    · intro h
      cases hc : encodeChar c with
      | none => rfl
      | some b =>
        exact absurd ⟨b.toNat, b.toNat_lt, by rw [← decodeByte_eq_spec]; exact decodeByte_encodeChar hc⟩ h
  cases he : encodeChars name with
  | none =>
    obtain ⟨c, hc, hc'⟩ := encodeChars_none he
    have : encodeName name = .err .stringEncoding := by simp [encodeName, he]
    refine ⟨.inr this, fun _ => .inl ⟨c, hc, (key c).mp hc'⟩, fun _ => this⟩
  | some bs =>
    have hl := encodeChars_length he
    have hall : ∀ c ∈ name, Spec.InCp1252 c := by
      rw [← encodeChars_decode he]
      intro c hc
      simp only [decodeName, List.mem_map] at hc
      obtain ⟨b, _, rfl⟩ := hc
      exact ⟨b.toNat, b.toNat_lt, (decodeByte_eq_spec b).symm⟩
    by_cases h : bs.length ≤ 255
    · have e : encodeName name = .ok bs := by simp [encodeName, he, h]
      refine ⟨.inl ⟨bs, e⟩, ?_, ?_⟩
      · intro h'; rw [e] at h'; cases h'
      · rintro (⟨c, hc, hn⟩ | h')
        · exact absurd (hall c hc) hn
        · omega
    · have e : encodeName name = .err .stringEncoding := by simp [encodeName, he, h]
      exact ⟨.inr e, fun _ => .inr (by omega), fun _ => e⟩

example : encodeName "Résumé €.txt".toList =
    .ok [82, 0xE9, 115, 117, 109, 0xE9, 32, 0x80, 46, 116, 120, 116] := by decide
example : encodeName "日本".toList = .err .stringEncoding := by decide

/-- **C04** (equality).  The comparison says `Equal` exactly when the names agree ignoring ASCII
case. -/
theorem C04_compare_eq_iff (a b : Str) : cmpIgnoreCase a b = .eq ↔ Spec.SameName a b :=
  cmp_eq_iff a b

/-- **C04** (order).  The comparison says `Less` exactly when the upper-cased first name is
lexicographically before the upper-cased second one. -/
theorem C04_compare_lt_iff (a b : Str) :
    cmpIgnoreCase a b = .lt ↔ Spec.LexLt (Spec.upper a) (Spec.upper b) := cmp_lt_iff a b

/-- **C04** (total order laws): reflexive, antisymmetric (swapping arguments swaps the result),
transitive, and compatible with case-insensitive equality. -/
theorem C04_compare_total_order :
    (∀ a, cmpIgnoreCase a a = .eq) ∧
    (∀ a b, cmpIgnoreCase b a = (cmpIgnoreCase a b).swap) ∧
    (∀ a b c, cmpIgnoreCase a b = .lt → cmpIgnoreCase b c = .lt → cmpIgnoreCase a c = .lt) ∧
    (∀ a a' b, Spec.SameName a a' → cmpIgnoreCase a b = cmpIgnoreCase a' b) :=
  ⟨fun a => (cmp_eq_iff a a).mpr rfl, cmp_swap, fun _ _ _ => cmp_trans_lt,
    fun _ _ _ h => cmp_congr_left ((cmp_eq_iff _ _).mpr h)⟩

example : cmpIgnoreCase "a_b".toList "ABB".toList = .gt := by decide
example : cmpIgnoreCase "Default.XBE".toList "default.xbe".toList = .eq := by decide

end Xdvdfs
