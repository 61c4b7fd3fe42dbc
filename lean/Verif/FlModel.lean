import Mathlib.Data.Int.Log
import Mathlib.Data.Rat.Floor

/-!
# Floating point numbers

Model of the IEEE-754 binary32 (`float`) and binary64 (`double`) arithmetic that the codecs use.
A number is a finite rational, an infinity or NaN. Every arithmetic operation computes the exact
result and then applies a rounding function `R : ℚ → Fl`, so each modelled C++ function can be
instantiated with exact arithmetic (`exact`), binary32 (`r32`) or binary64 (`r64`).

Simplifications: zeros have no sign (a division by zero of a positive number gives `+∞`); NaN has no
payload; rounding mode is the default, to nearest with ties to even; no flush-to-zero, no excess precision.
-/

namespace Dysco

/-- A floating point value. IEEE 754; not in the code. -/
inductive Fl where
  | fin (q : ℚ)
  | inf (neg : Bool)
  | nan
deriving DecidableEq

namespace Fl

/-- A binary format: precision `p` bits (with the implicit bit), exponent `emin` of the smallest
positive number, and `emax` with overflow to infinity at `2^emax`. IEEE 754; not in the code. -/
structure Fmt where
  p : ℕ
  emin : ℤ
  emax : ℤ

/-- IEEE-754 binary32. `float`. -/
def binary32 : Fmt := ⟨24, -149, 128⟩
/-- IEEE-754 binary64. `double`. -/
def binary64 : Fmt := ⟨53, -1074, 1024⟩

/-- Round to the nearest integer, ties to even. IEEE 754; not in the code. -/
def roundEven (x : ℚ) : ℤ :=
  if x - ⌊x⌋ < 1 / 2 then ⌊x⌋
  else if 1 / 2 < x - ⌊x⌋ then ⌊x⌋ + 1
  else if ⌊x⌋ % 2 = 0 then ⌊x⌋ else ⌊x⌋ + 1

/-- Exponent of the unit in the last place at `x`. IEEE 754; not in the code. -/
def ulpExp (f : Fmt) (x : ℚ) : ℤ := max (Int.log 2 |x| + 1 - f.p) f.emin

/-- Round to the nearest multiple of the unit in the last place (unbounded above). IEEE 754; not in the code. -/
def rnd (f : Fmt) (x : ℚ) : ℚ := roundEven (x / 2 ^ ulpExp f x) * 2 ^ ulpExp f x

/-- Rounding with overflow to infinity. IEEE 754; not in the code. -/
def round (f : Fmt) (x : ℚ) : Fl :=
  if |rnd f x| < 2 ^ f.emax then .fin (rnd f x) else .inf (decide (x < 0))

/-- Rounding functions. Not in the code. -/
def exact : ℚ → Fl := .fin
/-- Results of type `float`. -/
def r32 : ℚ → Fl := round binary32
/-- Results of type `double`. -/
def r64 : ℚ → Fl := round binary64

/-- `std::isfinite`. Used at stochasticencoder.h:82, 104, aftimeblockencoder.cc:136. -/
def isFinite : Fl → Bool
  | .fin _ => true
  | _ => false

/-- The comparison `a < b` (false when an operand is NaN). IEEE 754; not in the code. -/
def lt : Fl → Fl → Bool
  | .fin a, .fin b => decide (a < b)
  | .fin _, .inf n => !n
  | .inf n, .fin _ => n
  | .inf n, .inf m => n && !m
  | _, _ => false

/-- The comparison `a <= b`. IEEE 754; not in the code. -/
def le : Fl → Fl → Bool
  | .fin a, .fin b => decide (a ≤ b)
  | .fin _, .inf n => !n
  | .inf n, .fin _ => n
  | .inf n, .inf m => n || !m
  | _, _ => false

/-- `a == b`. IEEE 754; not in the code. -/
def eq : Fl → Fl → Bool
  | .fin a, .fin b => decide (a = b)
  | .inf n, .inf m => n == m
  | _, _ => false

/-- `std::max(a, b)` is `(a < b) ? b : a`.
Used at aftimeblockencoder.cc:134, 160, 193, rftimeblockencoder.cc:28, 30, 54. -/
def stdMax (a b : Fl) : Fl := if lt a b then b else a

/-- `std::fabs`. Used at aftimeblockencoder.cc:176, 220, 224. -/
def abs : Fl → Fl
  | .fin a => .fin |a|
  | .inf _ => .inf false
  | .nan => .nan

/-- Unary minus. Used at aftimeblockencoder.cc:135. -/
def neg : Fl → Fl
  | .fin a => .fin (-a)
  | .inf n => .inf (!n)
  | .nan => .nan

/-- Multiplication followed by rounding. IEEE 754; not in the code. -/
def mul (R : ℚ → Fl) : Fl → Fl → Fl
  | .fin a, .fin b => R (a * b)
  | .fin a, .inf n => if a = 0 then .nan else .inf (n != decide (a < 0))
  | .inf n, .fin b => if b = 0 then .nan else .inf (n != decide (b < 0))
  | .inf n, .inf m => .inf (n != m)
  | _, _ => .nan

/-- Division followed by rounding. IEEE 754; not in the code. -/
def div (R : ℚ → Fl) : Fl → Fl → Fl
  | .fin a, .fin b => if b = 0 then (if a = 0 then .nan else .inf (decide (a < 0))) else R (a / b)
  | .fin _, .inf _ => .fin 0
  | .inf n, .fin b => .inf (n != decide (b < 0))
  | _, _ => .nan

/-- Addition followed by rounding. IEEE 754; not in the code. -/
def add (R : ℚ → Fl) : Fl → Fl → Fl
  | .fin a, .fin b => R (a + b)
  | .fin _, .inf n => .inf n
  | .inf n, .fin _ => .inf n
  | .inf n, .inf m => if n = m then .inf n else .nan
  | _, _ => .nan

/-- Subtraction followed by rounding. IEEE 754; not in the code. -/
def sub (R : ℚ → Fl) (a b : Fl) : Fl := add R a (neg b)

/-- Conversion to another format (`float` ↔ `double`).
Used at timeblockbuffer.h:70-71, aftimeblockencoder.cc:288, 306. -/
def cast (R : ℚ → Fl) : Fl → Fl
  | .fin a => R a
  | x => x

end Fl

end Dysco
