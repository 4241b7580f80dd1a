import Mathlib.Data.Nat.Digits.Defs

/-!
# Numbers as text

Independent of the code: what a numeral is, what an integer literal of Go is
(https://go.dev/ref/spec#Integer_literals), and which integer it stands for.
-/

namespace Ringo

/-- `s` is the number `v` in base `b`, without superfluous zeros, with lower-case letters for the digits from
10 on. -/
def Shown (b : Nat) (s : List Char) (v : Nat) : Prop :=
  ∃ ds : List Nat, ds ≠ [] ∧ (∀ d ∈ ds, d < b) ∧ (ds.head? = some 0 → ds = [0]) ∧
    Nat.ofDigits b ds.reverse = v ∧
    s.map some = ds.map fun d => ("0123456789abcdefghijklmnopqrstuvwxyz".toList)[d]?

/-- `c` is the digit `d`, with a lower-case or an upper-case letter. -/
def DigitChar (c : Char) (d : Nat) : Prop :=
  "0123456789abcdef".toList[d]? = some c ∨ "0123456789ABCDEF".toList[d]? = some c

/-- Digits in base `b`, underscores between some of them: `digit { [ "_" ] digit }`. -/
inductive Numeral (b : Nat) : List Char → List Nat → Prop
  | digit {c d} : DigitChar c d → d < b → Numeral b [c] [d]
  | cons {c d s ds} : DigitChar c d → d < b → Numeral b s ds → Numeral b (c :: s) (d :: ds)
  | sep {c d s ds} : DigitChar c d → d < b → Numeral b s ds → Numeral b (c :: '_' :: s) (d :: ds)

/-- The prefixes and their bases. -/
inductive LitPrefix : List Char → Nat → Prop
  | binary {c} : c = 'b' ∨ c = 'B' → LitPrefix ['0', c] 2
  | zero : LitPrefix ['0'] 8
  | octal {c} : c = 'o' ∨ c = 'O' → LitPrefix ['0', c] 8
  | hex {c} : c = 'x' ∨ c = 'X' → LitPrefix ['0', c] 16

/-- Integer literals with their values. -/
inductive IntLit : List Char → Nat → Prop
  | zero : IntLit ['0'] 0
  | decimal {s ds} : Numeral 10 s ds → s.head? ≠ some '0' → IntLit s (Nat.ofDigits 10 ds.reverse)
  | based {p b s ds} : LitPrefix p b → Numeral b s ds → IntLit (p ++ s) (Nat.ofDigits b ds.reverse)
  | basedSep {p b s ds} : LitPrefix p b → Numeral b s ds →
      IntLit (p ++ '_' :: s) (Nat.ofDigits b ds.reverse)

/-- Integer literals with an optional sign. -/
inductive SignedLit : List Char → Int → Prop
  | plain {s v} : IntLit s v → SignedLit s v
  | plus {s v} : IntLit s v → SignedLit ('+' :: s) v
  | minus {s v} : IntLit s v → SignedLit ('-' :: s) (-v)

end Ringo
