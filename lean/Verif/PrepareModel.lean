import Verif.QuantileModel
import Verif.ToolsModel

/-!
# The quantiser of a data column, dyscodatacolumn.cc:31-49
-/

namespace Dysco.Prepare

open Stochastic Quantile Tools

/-- `stddev * std::sqrt(3)` for `stddev = 1.0f`, stored as float, stochasticencoder.cc:79. -/
def sqrt3 : ℚ := 14529495 / 2 ^ 23

/-- The default of the parameter `err`, stochasticencoder.h:164: the `double` nearest to `1e-13`. -/
def err : ℚ := 7922816251426434 / 2 ^ 96

/-- The library functions that the tables are computed with: the cumulative normal distribution in `long double`
(stochasticencoder.cc:16-20, with `gsl_sf_erf`), `gsl_cdf_gaussian_P(-truncation, 1)`, the inverse of the standard normal
distribution behind `gsl_cdf_gaussian_Pinv`, and `gsl_cdf_tdist_Pinv(., nu)` in `double`. -/
structure Lib where
  P : ℚ → ℚ
  p0 : ℚ
  Q : ℚ → ℚ
  T : ℚ → Fl

/-- The value that is stored in a table for a fraction, with the parameters of dyscodatacolumn.cc:31-49: standard deviation or
rms 1. -/
def value (lib : Lib) (fuel : Nat) : Distribution → ℚ → Fl
  | .gaussian => gaussF (Fl.round extended) (Fl.rnd extended) lib.P err fuel sqrt3
  | .uniform => uniformLD (Fl.round extended) (Fl.rnd extended) sqrt3
  | .studentsT => fun c => Fl.cast Fl.r32 (Fl.mul Fl.r64 (lib.T (Fl.rnd Fl.binary64 (Fl.rnd extended c))) (.fin 1))
  | .truncatedGaussian => truncF (Fl.round Fl.binary64) (Fl.rnd extended) (Fl.rnd Fl.binary64) lib.Q lib.p0 1

/-- The second `switch` of `DyscoDataColumn::Prepare`, dyscodatacolumn.cc:31-49. `e0` and `d0` are the contents of the new
memory. -/
def encoder (lib : Lib) (fuel : Nat) (d : Distribution) (bits : Nat) (e0 d0 : Nat → Fl) : Option Encoder :=
  construct (2 ^ bits) (value lib fuel d) e0 d0

end Dysco.Prepare
