import Verif.Basic

/-!
# Specification of file names: Windows-1252 and ASCII case folding
-/

namespace Xdvdfs.Spec

/-- The characters of bytes `0x80 .. 0x9f` in Windows-1252 (WHATWG encoding standard). -/
def cp1252Special : List Char :=
  "€\x81‚ƒ„…†‡ˆ‰Š‹Œ\x8dŽ\x8f\x90‘’“”•–—˜™š›œ\x9džŸ".toList

/-- The character a byte stands for in Windows-1252: the special block above, otherwise the
character with the same code. -/
def cp1252Char (b : Nat) : Char :=
  if 0x80 ≤ b ∧ b < 0xA0 then
    match cp1252Special[b - 0x80]? with
    | some c => c
    | none => Char.ofNat b
  else Char.ofNat b

/-- A character has a Windows-1252 code. -/
def InCp1252 (c : Char) : Prop := ∃ b, b < 256 ∧ cp1252Char b = c

/-- ASCII upper-casing of one character. -/
def asciiUpper (c : Char) : Char :=
  if 'a' ≤ c ∧ c ≤ 'z' then Char.ofNat (c.toNat - 32) else c

/-- ASCII upper-casing of a name. -/
def upper (s : Str) : Str := s.map asciiUpper

/-- Two names are the same ignoring ASCII case. -/
def SameName (a b : Str) : Prop := upper a = upper b

instance (a b : Str) : Decidable (SameName a b) := inferInstanceAs (Decidable (_ = _))

/-- Strict lexicographic order of the code points of two strings. -/
def LexLt (a b : Str) : Prop := List.Lex (fun x y : Char => x.toNat < y.toNat) a b

end Xdvdfs.Spec
