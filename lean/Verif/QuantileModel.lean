import Verif.StochasticModel

/-!
# Model of `StochasticEncoder::invCumulative`, stochasticencoder.cc:15-66

The bisection that inverts the cumulative normal distribution. `P x` stands for `cumulative(x)`
(stochasticencoder.cc:16-19, a call of `gsl_sf_erf`) and is a parameter; `R` is the rounding of the
`long double` operations. Doubling and the comparisons are exact. A loop that does not end within `fuel`
iterations gives `none`. `num_t` has no overflow here: the numbers handled are probabilities and powers of two.
-/

namespace Dysco.Quantile

/-- stochasticencoder.cc:38-41: `do { x *= 2.0; fx = cumulative(x); } while (fx < c);` -/
def grow (P : ℚ → ℚ) (c : ℚ) : Nat → ℚ → Option ℚ
  | 0, _ => none
  | k + 1, x => if P (x * 2) < c then grow P c k (x * 2) else some (x * 2)

/-- `(xLow + xHi) * 0.5`, stochasticencoder.cc:51. -/
def mid (R : ℚ → ℚ) (lo hi : ℚ) : ℚ := R (R (lo + hi) * (1 / 2))

/-- `std::fabs(fx - c)`, stochasticencoder.cc:57. -/
def cur (R P : ℚ → ℚ) (c x : ℚ) : ℚ := |R (P x - c)|

/-- stochasticencoder.cc:50-65, the bisection loop. `nc` is `notConverging`. -/
def bisect (R P : ℚ → ℚ) (c err : ℚ) : Nat → ℚ → ℚ → ℚ → Nat → Option ℚ
  | 0, _, _, _, _ => none
  | k + 1, lo, hi, error, nc =>
    let x := mid R lo hi
    let lo' := if P x > c then lo else x
    let hi' := if P x > c then x else hi
    let e := cur R P c x
    if e ≥ error ∧ nc + 1 > 10 then some x
    else if e > err then bisect R P c err k lo' hi' e (if e ≥ error then nc + 1 else 0)
    else some x

/-- The interval at the start of the bisection, stochasticencoder.cc:34-47. -/
def start (P : ℚ → ℚ) (c : ℚ) (fuel : Nat) : Option (ℚ × ℚ) :=
  if P 1 < c then (grow P c fuel 1).map fun x => (x * (1 / 2), x) else some (0, 1)

/-- `invCumulative(c, err)`, stochasticencoder.cc:23-66. `depth` bounds the recursion of line 25. -/
def inv (R P : ℚ → ℚ) (err : ℚ) (fuel : Nat) : Nat → ℚ → Option Fl
  | 0, _ => none
  | depth + 1, c =>
    if c < 1 / 2 then (inv R P err fuel depth (R (1 - c))).map Fl.neg
    else if c = 1 / 2 then some (.fin 0)
    else if c = 1 then some (.inf false)
    else if c > 1 then some .nan
    else match start P c fuel with
      | none => none
      | some (lo, hi) => (bisect R P c err fuel lo hi hi 0).map .fin

/-- `*item = stddev * invCumulative(i / (quantCount - 1))`, stochasticencoder.cc:86-94: division,
`invCumulative` and product in `long double` (rounding `R`, without overflow `r`), conversion to float.
A computation that does not end is represented by NaN; the theorems show that this does not occur. -/
def gaussF (R : ℚ → Fl) (r P : ℚ → ℚ) (err : ℚ) (fuel : Nat) (sd c : ℚ) : Fl :=
  match inv r P err fuel 2 (r c) with
  | none => .nan
  | some x => Fl.cast Fl.r32 (Fl.mul R (.fin sd) x)

/-- `*item = stddev * (-1.0 + 2.0 * i / (quantCount - 1))`, stochasticencoder.cc:97-109, in `long double`;
the argument `c` is the fraction `i / (quantCount - 1)`, doubling is exact. -/
def uniformLD (R : ℚ → Fl) (r : ℚ → ℚ) (sd c : ℚ) : Fl :=
  Fl.cast Fl.r32 (Fl.mul R (.fin sd) (.fin (r (-1 + r (2 * c)))))

/-- `cdfVal`, stochasticencoder.cc:152-153, 158-159, 164-165. `p0` is `cdfValueAtTrunc`; `r80` and `r64` round to
`long double` and `double`; doubling is exact. -/
def truncCdf (r80 r64 : ℚ → ℚ) (p0 c : ℚ) : ℚ := r64 (r64 (r64 (r80 c) * r64 (1 - 2 * p0)) + p0)

/-- `*item = gsl_cdf_gaussian_Pinv(cdfVal, rms)`, stochasticencoder.cc:160, 166. The GSL function is
`rms` times the inverse `Q` of the standard distribution, in `double` (rounding `R`). -/
def truncF (R : ℚ → Fl) (r80 r64 Q : ℚ → ℚ) (p0 rms c : ℚ) : Fl :=
  Fl.cast Fl.r32 (Fl.mul R (.fin rms) (.fin (Q (truncCdf r80 r64 p0 c))))

/-- x87 extended precision, the `long double` of x86. stochasticencoder.h:161. -/
def extended : Fl.Fmt := ⟨64, -16445, 16384⟩

end Dysco.Quantile
