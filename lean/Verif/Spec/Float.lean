import Mathlib.Data.Rat.Floor
/-
What is assumed of double precision arithmetic: the result of an operation is the exact result rounded, rounding is monotone, keeps
integers up to `2^53` and numbers already rounded, and has a relative error of at most `2^-53` (no overflow or underflow occurs for the numbers in question).
-/
namespace Spreg.Spec

structure Rounds (rd : ℚ → ℚ) : Prop where
  mono : ∀ p q, p ≤ q → rd p ≤ rd q
  int : ∀ z : ℤ, |z| ≤ 2 ^ 53 → rd z = z
  idem : ∀ q, rd (rd q) = rd q
  rel : ∀ q, |rd q - q| ≤ |q| / 2 ^ 53

end Spreg.Spec
