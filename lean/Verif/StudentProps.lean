import Verif.QuantiserProps
import Mathlib.Analysis.SpecialFunctions.Trigonometric.ArctanDeriv
import Mathlib.Analysis.SpecialFunctions.Trigonometric.Bounds

/-!
# C108: the quantiser for Student's t distribution with one degree of freedom

`dscompress` has no option for the degrees of freedom, so that they are always 1 (the Cauchy distribution, whose quantiles are
tangents).
-/

namespace Dysco.End

open Prepare
open Stochastic (Encoder construct fltMax)
open Quantile (extended)
open Real (tan arctan sin cos pi)

/-- `gsl_cdf_tdist_Pinv(c, 1)` is accurate: the probability of what it returns is close to `c`. -/
def CauchyInv (T : ℚ → Fl) : Prop :=
  ∀ c : ℚ, 1 / 10 ^ 6 ≤ c → c ≤ 1 - 1 / 10 ^ 6 → ∃ x : ℚ, T c = .fin x ∧ |arctan x - pi * ((c : ℝ) - 1 / 2)| ≤ 2⁻¹ ^ 40

theorem tan_sub_tan {a b : ℝ} (ha : cos a ≠ 0) (hb : cos b ≠ 0) : tan b - tan a = sin (b - a) / (cos a * cos b) := by
  rw [Real.tan_eq_sin_div_cos, Real.tan_eq_sin_div_cos, Real.sin_sub]
  field_simp

theorem arctan_dist (x y : ℝ) : |arctan x - arctan y| ≤ |x - y| := by
  have h : LipschitzWith 1 arctan := by
    refine lipschitzWith_of_nnnorm_deriv_le Real.differentiable_arctan fun z => ?_
    rw [Real.deriv_arctan]
    have h1 : (0 : ℝ) < 1 + z ^ 2 := by positivity
    have : ‖1 / (1 + z ^ 2)‖ ≤ 1 := by
      rw [Real.norm_eq_abs, abs_of_pos (by positivity), div_le_one h1]
      have := sq_nonneg z
      linarith
    exact this
  have := h.dist_le_mul x y
  rw [Real.dist_eq, Real.dist_eq] at this
  simpa using this

/-- A relative change hardly changes the probability. -/
theorem arctan_close {x y : ℝ} (hx : |x| ≤ 2 ^ 20) (h : |y - x| ≤ |x| * 2⁻¹ ^ 23 + 2⁻¹ ^ 40) :
    |arctan y - arctan x| ≤ 2⁻¹ ^ 22 - 2⁻¹ ^ 30 := by
  have h1 := arctan_dist y x
  have h2 : |arctan y - arctan x| ≤ 1 / 2 := by
    have := mul_le_mul_of_nonneg_right hx (by norm_num : (0 : ℝ) ≤ 2⁻¹ ^ 23)
    norm_num at h1 h this ⊢
    linarith
  have c1 := Real.cos_arctan_pos x
  have c2 := Real.cos_arctan_pos y
  have h3 : |sin (arctan y - arctan x)| ≤ 2⁻¹ ^ 23 + 2⁻¹ ^ 40 := by
    have e := tan_sub_tan c1.ne' c2.ne'
    rw [Real.tan_arctan, Real.tan_arctan, eq_div_iff (by positivity)] at e
    rw [← e, abs_mul, abs_mul, abs_of_pos c1, abs_of_pos c2]
    have e2 : |x| * cos (arctan x) = |sin (arctan x)| := by
      nth_rewrite 1 [← Real.tan_arctan x]
      rw [Real.tan_eq_sin_div_cos, abs_div, abs_of_pos c1, div_mul_cancel₀ _ c1.ne']
    have e3 : |sin (arctan x)| ≤ 1 := Real.abs_sin_le_one _
    have e4 : cos (arctan x) ≤ 1 := Real.cos_le_one _
    have e5 : cos (arctan y) ≤ 1 := Real.cos_le_one _
    have g1 : |y - x| * cos (arctan x) ≤ (|x| * 2⁻¹ ^ 23 + 2⁻¹ ^ 40) * cos (arctan x) :=
      mul_le_mul_of_nonneg_right h c1.le
    have g2 : |y - x| * cos (arctan x) * cos (arctan y) ≤ |y - x| * cos (arctan x) * 1 :=
      mul_le_mul_of_nonneg_left e5 (by positivity)
    have g3 : (|x| * 2⁻¹ ^ 23 + 2⁻¹ ^ 40) * cos (arctan x) = |x| * cos (arctan x) * 2⁻¹ ^ 23 + 2⁻¹ ^ 40 * cos (arctan x) := by
      ring
    rw [g3, e2] at g1
    rw [← mul_assoc]
    norm_num at g1 g2 e3 ⊢
    linarith
  have h4 : 2 / pi * |arctan y - arctan x| ≤ |sin (arctan y - arctan x)| := by
    refine le_trans (Real.mul_le_sin (abs_nonneg _) ?_) ?_
    · have := Real.pi_gt_three
      linarith
    · rcases abs_cases (arctan y - arctan x) with ⟨q, _⟩ | ⟨q, _⟩
      · rw [q]
        exact le_abs_self _
      · rw [q, Real.sin_neg]
        exact neg_le_abs _
  have h5 : 0.63 ≤ 2 / pi := by
    rw [le_div_iff₀ Real.pi_pos]
    have := Real.pi_lt_d2
    norm_num at this ⊢
    linarith
  have h6 := mul_le_mul_of_nonneg_right h5 (abs_nonneg (arctan y - arctan x))
  norm_num at h3 h4 h6 ⊢
  linarith

theorem arctan_bounded {x w : ℝ} (hw : 2⁻¹ ^ 20 < w) (h : |arctan x| ≤ pi / 2 - w) : |x| ≤ 2 ^ 20 := by
  have key : ∀ y : ℝ, arctan y ≤ pi / 2 - w → y ≤ 2 ^ 20 := by
    intro y hy
    by_contra hcon
    have h1 := Real.arctan_strictMono (not_le.mp hcon)
    have h2 := Real.arctan_inv_of_pos (x := 2⁻¹ ^ 20) (by norm_num)
    have h3 := arctan_dist (2⁻¹ ^ 20) 0
    rw [Real.arctan_zero, sub_zero, sub_zero, abs_of_pos (by norm_num : (0 : ℝ) < 2⁻¹ ^ 20)] at h3
    have h4 := le_trans (le_abs_self _) h3
    rw [show ((2 : ℝ)⁻¹ ^ 20)⁻¹ = 2 ^ 20 by norm_num] at h2
    rw [h2] at h1
    generalize arctan (2⁻¹ ^ 20) = B at h1 h4
    linarith
  obtain ⟨h1, h2⟩ := abs_le.mp h
  refine abs_le.mpr ⟨?_, key x h2⟩
  have := key (-x) (by rw [Real.arctan_neg]; linarith)
  linarith

/-- The float that is stored for a fraction. -/
theorem student_value {lib : Lib} (hT : CauchyInv lib.T) (fuel : Nat) {c : ℚ} (h1 : 1 / 131070 ≤ c)
    (h2 : c ≤ 1 - 1 / 131070) :
    ∃ f : ℚ, value lib fuel .studentsT c = .fin f ∧ |arctan f - pi * ((c : ℝ) - 1 / 2)| ≤ 2⁻¹ ^ 22 := by
  have a1 : |Fl.rnd extended c - c| ≤ 1 / 2 ^ 60 := by
    refine le_trans (Quantile.ext_err _) ?_
    rw [abs_of_nonneg (by linarith)]
    norm_num at h2 ⊢
    linarith
  have b1 := abs_le.mp a1
  have a2 := Quantile.dbl_err (x := Fl.rnd extended c) (by apply abs_le.mpr; norm_num at b1 h1 h2 ⊢; constructor <;> linarith)
  have b2 := abs_le.mp a2
  obtain ⟨x, x1, x2⟩ := hT (Fl.rnd Fl.binary64 (Fl.rnd extended c))
    (by norm_num at b1 b2 h1 ⊢; linarith) (by norm_num at b1 b2 h2 ⊢; linarith)
  have e0 : |((Fl.rnd Fl.binary64 (Fl.rnd extended c) : ℚ) : ℝ) - (c : ℝ)| ≤ 2⁻¹ ^ 50 := by
    have : |Fl.rnd Fl.binary64 (Fl.rnd extended c) - c| ≤ 2⁻¹ ^ 50 := by
      apply abs_le.mpr
      norm_num at b1 b2 ⊢
      constructor <;> linarith
    have := (Rat.cast_le (K := ℝ)).mpr this
    push_cast at this ⊢
    exact this
  have hpi := Real.pi_lt_four
  have hpi3 := Real.pi_gt_three
  have x3 : |arctan x - pi * ((c : ℝ) - 1 / 2)| ≤ 2⁻¹ ^ 40 + 2⁻¹ ^ 48 := by
    have e1 : arctan x - pi * ((c : ℝ) - 1 / 2) =
        (arctan x - pi * (((Fl.rnd Fl.binary64 (Fl.rnd extended c) : ℚ) : ℝ) - 1 / 2)) +
        pi * (((Fl.rnd Fl.binary64 (Fl.rnd extended c) : ℚ) : ℝ) - c) := by ring
    rw [e1]
    refine le_trans (abs_add_le _ _) ?_
    rw [abs_mul, abs_of_pos Real.pi_pos]
    have := mul_le_mul hpi.le e0 (abs_nonneg _) (by norm_num)
    norm_num at this x2 ⊢
    linarith
  have hc1 : (1 / 131070 : ℝ) ≤ c := by
    have := (Rat.cast_le (K := ℝ)).mpr h1
    push_cast at this
    exact this
  have hc2 : (c : ℝ) ≤ 1 - 1 / 131070 := by
    have := (Rat.cast_le (K := ℝ)).mpr h2
    push_cast at this
    exact this
  have hx : |(x : ℝ)| ≤ 2 ^ 20 := by
    refine arctan_bounded (w := 2 / 131070) (by norm_num) ?_
    have b3 := abs_le.mp x3
    have m1 := mul_le_mul_of_nonneg_left hc1 Real.pi_pos.le
    have m2 := mul_le_mul_of_nonneg_left hc2 Real.pi_pos.le
    apply abs_le.mpr
    norm_num at b3 m1 m2 ⊢
    constructor <;> linarith
  have hxq : |x| ≤ 2 ^ 20 := by
    have : |(x : ℝ)| ≤ ((2 ^ 20 : ℚ) : ℝ) := by push_cast; exact hx
    exact_mod_cast this
  have r1 := Fl.rnd_gen_err (f := Fl.binary64) x
  have t1 : (2 : ℚ) ^ (-((Fl.binary64.p : ℕ) : ℤ)) = 1 / 2 ^ 53 := by norm_num [Fl.binary64]
  have t2 : (2 : ℚ) ^ (Fl.binary64.emin - 1) ≤ 1 / 2 ^ 100 := by
    rw [show (1 : ℚ) / 2 ^ 100 = 2 ^ (-100 : ℤ) by norm_num]
    exact zpow_le_zpow_right₀ (by norm_num) (by decide)
  rw [t1] at r1
  set y := Fl.rnd Fl.binary64 x with hy
  have hyx : |y| ≤ |x| + (|x| * (1 / 2 ^ 53) + 1 / 2 ^ 100) := by
    have := abs_sub_abs_le_abs_sub y x
    linarith
  have r2 := Fl.rnd_gen_err (f := Fl.binary32) y
  have t3 : (2 : ℚ) ^ (-((Fl.binary32.p : ℕ) : ℤ)) = 1 / 2 ^ 24 := by norm_num [Fl.binary32]
  have t4 : (2 : ℚ) ^ (Fl.binary32.emin - 1) ≤ 1 / 2 ^ 100 := by
    rw [show (1 : ℚ) / 2 ^ 100 = 2 ^ (-100 : ℤ) by norm_num]
    exact zpow_le_zpow_right₀ (by norm_num) (by decide)
  rw [t3] at r2
  set z := Fl.rnd Fl.binary32 y with hz
  have hzx : |z - x| ≤ |x| * 2⁻¹ ^ 23 + 2⁻¹ ^ 40 := by
    have := abs_sub_le z y x
    have h0 := abs_nonneg x
    norm_num at r1 r2 hyx t2 t4 this ⊢
    linarith
  have hz2 : |z| ≤ |x| + (|x| * 2⁻¹ ^ 23 + 2⁻¹ ^ 40) := by
    have := abs_sub_abs_le_abs_sub z x
    linarith
  have q1 : Fl.mul Fl.r64 (.fin x) (.fin 1) = .fin y := by
    show Fl.round Fl.binary64 (x * 1) = _
    rw [mul_one]
    refine if_pos (lt_of_le_of_lt (b := 2 ^ 22) ?_ ?_)
    · rw [← hy]
      norm_num at hyx hxq ⊢
      linarith
    · rw [show (2 : ℚ) ^ 22 = 2 ^ (22 : ℤ) by norm_num]
      exact zpow_lt_zpow_right₀ (by norm_num) (by decide)
  have q2 : Fl.r32 y = .fin z := by
    refine if_pos (lt_of_le_of_lt (b := 2 ^ 22) ?_ ?_)
    · rw [← hz]
      norm_num at hz2 hxq ⊢
      linarith
    · rw [show (2 : ℚ) ^ 22 = 2 ^ (22 : ℤ) by norm_num]
      exact zpow_lt_zpow_right₀ (by norm_num) (by decide)
  refine ⟨z, ?_, ?_⟩
  · show Fl.cast Fl.r32 (Fl.mul Fl.r64 (lib.T (Fl.rnd Fl.binary64 (Fl.rnd extended c))) (.fin 1)) = _
    rw [x1, q1]
    exact q2
  · have g := arctan_close (x := (x : ℝ)) (y := (z : ℝ)) hx (by
      have := (Rat.cast_le (K := ℝ)).mpr hzx
      push_cast at this ⊢
      exact this)
    have := abs_sub_le (arctan z) (arctan x) (pi * ((c : ℝ) - 1 / 2))
    norm_num at g this x3 ⊢
    linarith

/-- A sequence of points whose probabilities are close to `k / (2 N)`. -/
structure CauchyGrid (N : Nat) (f : Nat → ℝ) : Prop where
  three : 3 ≤ N
  le : N ≤ 65535
  close : ∀ k : Nat, 1 ≤ k → k < 2 * N → |arctan (f k) - pi * ((k : ℝ) / (2 * N) - 1 / 2)| ≤ 2⁻¹ ^ 22

section

variable {N : Nat} {f : Nat → ℝ} (H : CauchyGrid N f)
include H

/-- The numbers that the bounds below use: `u` and `v` are the smallest and largest step. -/
theorem CauchyGrid.facts {u v : ℝ} (hu : u = pi / (2 * N) - 2⁻¹ ^ 22) (hv : v = pi / (2 * N) + 2⁻¹ ^ 22) :
    0.98 * (pi / (2 * N)) ≤ u ∧ 0 < u ∧ 6 * u ≤ pi ∧ 4 * v ≤ pi ∧ 0 < sin u ∧ sin u ≤ 1 / 2 ∧ sin v ≤ 1.032 * sin u ∧
      0.85 ≤ cos v ∧ cos u ≤ 1.01 * cos v ∧ 0 < sin v ∧ (7 ≤ N → sin u ≤ 0.225) := by
  have p1 := Real.pi_gt_d2
  have p2 := Real.pi_lt_d2
  have n1 : (3 : ℝ) ≤ N := by exact_mod_cast H.three
  have n2 : (N : ℝ) ≤ 65535 := by exact_mod_cast H.le
  set h := pi / (2 * N) with hh
  have hN : h * (2 * N) = pi := by rw [hh]; field_simp
  have h1 : 0.0000239 ≤ h := by
    rw [hh, le_div_iff₀ (by linarith)]
    norm_num at p1 ⊢
    linarith
  have h2 : 6 * h ≤ pi := by
    rw [← hN]
    have := mul_le_mul_of_nonneg_left n1 (by norm_num at h1; linarith : 0 ≤ 2 * h)
    linarith
  have a1 : 0.98 * h ≤ u := by norm_num at h1 hu ⊢; linarith
  have a2 : 0 < u := by norm_num at h1 hu ⊢; linarith
  have a3 : 6 * u ≤ pi := by norm_num at hu ⊢; linarith
  have a4 : 4 * v ≤ pi := by norm_num at hv p1 ⊢; linarith
  have a5 : u + 2 * 2⁻¹ ^ 22 = v := by rw [hu, hv]; ring
  have s1 : 0 < sin u := Real.sin_pos_of_pos_of_lt_pi a2 (by linarith)
  have s2 : sin u ≤ 1 / 2 := by
    rw [← Real.sin_pi_div_six]
    exact Real.sin_le_sin_of_le_of_le_pi_div_two (by linarith) (by linarith) (by linarith)
  have s3 : 0.000015 ≤ sin u := by
    have q := Real.mul_le_sin a2.le (by linarith)
    have w : 0.634 ≤ 2 / pi := by
      rw [le_div_iff₀ Real.pi_pos]
      norm_num at p2 ⊢
      linarith
    have := mul_le_mul_of_nonneg_right w a2.le
    norm_num at this a1 h1 ⊢
    linarith
  have e0 : (0 : ℝ) ≤ 2 * 2⁻¹ ^ 22 := by norm_num
  have e1 : sin (2 * 2⁻¹ ^ 22) ≤ 2 * 2⁻¹ ^ 22 := Real.sin_le e0
  have e2 : 0 ≤ sin (2 * 2⁻¹ ^ 22) := Real.sin_nonneg_of_nonneg_of_le_pi e0 (by norm_num at p1 ⊢; linarith)
  have e3 : cos (2 * 2⁻¹ ^ 22) ≤ 1 := Real.cos_le_one _
  have c0 : 0 < cos u := Real.cos_pos_of_mem_Ioo ⟨by linarith, by linarith⟩
  have c1 : cos u ≤ 1 := Real.cos_le_one _
  have s4 : sin v ≤ 1.032 * sin u := by
    rw [← a5, Real.sin_add]
    have g1 := mul_le_mul_of_nonneg_left e3 s1.le
    have g2 := mul_le_mul c1 e1 e2 (by norm_num)
    norm_num at g1 g2 s3 ⊢
    linarith
  have cv : 0 < cos v := Real.cos_pos_of_mem_Ioo ⟨by linarith, by linarith⟩
  have sv : 0 < sin v := Real.sin_pos_of_pos_of_lt_pi (by linarith) (by linarith)
  have s5 : sin v ≤ 0.516 := by norm_num at s4 ⊢; linarith
  have c2 : 0.85 ≤ cos v := by
    by_contra hcon
    have g1 := Real.sin_sq_add_cos_sq v
    have g2 : sin v ^ 2 ≤ 0.516 ^ 2 := pow_le_pow_left₀ sv.le s5 2
    have g3 : cos v ^ 2 ≤ 0.85 ^ 2 := pow_le_pow_left₀ cv.le (not_le.mp hcon).le 2
    norm_num at g2 g3
    linarith
  have c3 : cos u ≤ 1.01 * cos v := by
    have g : cos u = cos v * cos (2 * 2⁻¹ ^ 22) + sin v * sin (2 * 2⁻¹ ^ 22) := by
      rw [← Real.cos_sub]
      congr 1
      linarith
    have g1 := mul_le_mul_of_nonneg_left e3 cv.le
    have g2 := mul_le_mul s5 e1 e2 (by norm_num)
    norm_num at g g1 g2 c2 ⊢
    linarith
  refine ⟨a1, a2, a3, a4, s1, s2, s4, c2, c3, sv, fun h7 => ?_⟩
  have n7 : (7 : ℝ) ≤ N := by exact_mod_cast h7
  have h8 : 14 * h ≤ pi := by
    rw [← hN]
    have := mul_le_mul_of_nonneg_left n7 (by norm_num at h1; linarith : 0 ≤ 2 * h)
    linarith
  have := Real.sin_le a2.le
  norm_num at hu p2 ⊢
  linarith

theorem CauchyGrid.angle {k : Nat} (h1 : 1 ≤ k) (h2 : k < 2 * N) :
    |arctan (f k) - ((k : ℝ) - N) * (pi / (2 * N))| ≤ 2⁻¹ ^ 22 := by
  have n1 : (3 : ℝ) ≤ N := by exact_mod_cast H.three
  have := H.close k h1 h2
  rw [show pi * ((k : ℝ) / (2 * N) - 1 / 2) = ((k : ℝ) - N) * (pi / (2 * N)) by field_simp] at this
  exact this

/-- `m` steps from the ends, the density is not too small. -/
theorem CauchyGrid.cos_ge {u : ℝ} (hu : u = pi / (2 * N) - 2⁻¹ ^ 22) {k m : Nat} (hm1 : 1 ≤ m) (hm3 : m ≤ 3) (h1 : m ≤ k)
    (h2 : k + m ≤ 2 * N) : sin (m * u) ≤ cos (arctan (f k)) := by
  obtain ⟨-, u0, u6, -⟩ := H.facts hu rfl
  have n1 : (3 : ℝ) ≤ N := by exact_mod_cast H.three
  have a := abs_le.mp (H.angle (k := k) (by omega) (by omega))
  set h := pi / (2 * N) with hh
  have hN : h * (2 * N) = pi := by rw [hh]; field_simp
  have hp : 0 < h := by
    have := Real.pi_pos
    positivity
  have m1 : (1 : ℝ) ≤ m := by exact_mod_cast hm1
  have m3 : (m : ℝ) ≤ 3 := by exact_mod_cast hm3
  have k1 : (m : ℝ) ≤ k := by exact_mod_cast h1
  have k2 : (k : ℝ) + m ≤ 2 * N := by exact_mod_cast h2
  have g1 := mul_le_mul_of_nonneg_right k1 hp.le
  have g2 := mul_le_mul_of_nonneg_right k2 hp.le
  have g3 : (m : ℝ) * u = m * h - m * 2⁻¹ ^ 22 := by rw [hu]; ring
  have g4 := mul_le_mul_of_nonneg_right m1 (by norm_num : (0 : ℝ) ≤ 2⁻¹ ^ 22)
  have b : |arctan (f k)| ≤ pi / 2 - m * u := by
    apply abs_le.mpr
    constructor <;> linarith
  rw [← Real.cos_abs, ← Real.cos_pi_div_two_sub]
  refine Real.cos_le_cos_of_nonneg_of_le_pi (abs_nonneg _) ?_ b
  have := mul_pos (by linarith : (0 : ℝ) < m) u0
  linarith [Real.pi_pos]

theorem CauchyGrid.asc {k : Nat} (h1 : 1 ≤ k) (h2 : k + 1 < 2 * N) : f k < f (k + 1) := by
  obtain ⟨a1, u0, -⟩ := H.facts rfl rfl
  have b1 := abs_le.mp (H.angle h1 (by omega))
  have b2 := abs_le.mp (H.angle (k := k + 1) (by omega) h2)
  push_cast at b2
  refine Real.arctan_strictMono.lt_iff_lt.mp ?_
  have p1 := Real.pi_gt_d2
  have n2 : (N : ℝ) ≤ 65535 := by exact_mod_cast H.le
  have n1 : (3 : ℝ) ≤ N := by exact_mod_cast H.three
  have h3 : 0.0000239 ≤ pi / (2 * N) := by
    rw [le_div_iff₀ (by linarith)]
    norm_num at p1 ⊢
    linarith
  generalize pi / (2 * N) = h at *
  norm_num at b1 b2 h3
  linarith [b1.2, b2.1]

/-- The outermost points. -/
theorem CauchyGrid.ends {u v : ℝ} (hu : u = pi / (2 * N) - 2⁻¹ ^ 22) (hv : v = pi / (2 * N) + 2⁻¹ ^ 22) :
    (cos v / sin v ≤ f (2 * N - 1) ∧ f (2 * N - 1) ≤ cos u / sin u) ∧ cos v / sin v ≤ -f 1 ∧ -f 1 ≤ cos u / sin u := by
  obtain ⟨-, u0, u6, v4, -⟩ := H.facts hu hv
  have hN3 := H.three
  have n1 : (3 : ℝ) ≤ N := by exact_mod_cast H.three
  have key : ∀ y : ℝ, pi / 2 - v ≤ arctan y → arctan y ≤ pi / 2 - u → cos v / sin v ≤ y ∧ y ≤ cos u / sin u := by
    intro y hy1 hy2
    have hp := Real.pi_pos
    have mono := Real.strictMonoOn_tan.monotoneOn
    have m0 : arctan y ∈ Set.Ioo (-(pi / 2)) (pi / 2) := ⟨Real.neg_pi_div_two_lt_arctan y, Real.arctan_lt_pi_div_two y⟩
    have m1 := mono (a := pi / 2 - v) ⟨by linarith, by linarith⟩ m0 hy1
    have m2 := mono (b := pi / 2 - u) m0 ⟨by linarith, by linarith⟩ hy2
    rw [Real.tan_arctan, Real.tan_pi_div_two_sub, Real.tan_eq_sin_div_cos, inv_div] at m1 m2
    exact ⟨m1, m2⟩
  have b1 := abs_le.mp (H.angle (k := 2 * N - 1) (by omega) (by omega))
  have b2 := abs_le.mp (H.angle (k := 1) (by omega) (by omega))
  rw [Nat.cast_sub (by omega)] at b1
  push_cast at b1 b2
  set h := pi / (2 * N) with hh
  have hN : h * (2 * N) = pi := by rw [hh]; field_simp
  constructor
  · apply key <;> linarith
  · apply key <;> rw [Real.arctan_neg] <;> linarith

/-- The largest level, and the symmetry of the table. -/
theorem CauchyGrid.top : 1 / 2 ≤ f (2 * N - 1) ∧ f (2 * N - 1) ≤ N ∧ -(5 / 4 * f (2 * N - 1)) ≤ f 1 ∧
    f 1 + f (2 * N - 1) ≤ 1 / 5 * f (2 * N - 1) := by
  obtain ⟨a1, u0, u6, v4, s1, s2, s4, c2, c3, sv, -⟩ := H.facts rfl rfl
  obtain ⟨⟨t1, t2⟩, t3, t4⟩ := H.ends rfl rfl
  set u := pi / (2 * N) - 2⁻¹ ^ 22 with hu
  set v := pi / (2 * N) + 2⁻¹ ^ 22 with hv
  have n1 : (3 : ℝ) ≤ N := by exact_mod_cast H.three
  have w1 : 1 / 2 ≤ cos v / sin v := by
    rw [le_div_iff₀ sv]
    norm_num at s4 c2 ⊢
    linarith
  have w2 : cos u / sin u ≤ 5 / 4 * (cos v / sin v) := by
    rw [← mul_div_assoc, div_le_div_iff₀ s1 sv]
    have c0 : 0 < cos v := by norm_num at c2; linarith
    have g1 := mul_le_mul c3 s4 sv.le (by positivity)
    have g2 := mul_pos c0 s1
    norm_num at g1 ⊢
    linarith
  have w3 : cos u / sin u ≤ N := by
    have g := Real.le_tan u0.le (by linarith)
    have g1 : cos u / sin u = (tan u)⁻¹ := by rw [Real.tan_eq_sin_div_cos, inv_div]
    rw [g1]
    have g2 : (tan u)⁻¹ ≤ u⁻¹ := inv_anti₀ u0 g
    refine le_trans g2 ?_
    rw [inv_le_iff_one_le_mul₀ u0]
    have g3 := mul_le_mul_of_nonneg_left a1 (by linarith : (0 : ℝ) ≤ N)
    have g4 : (N : ℝ) * (0.98 * (pi / (2 * N))) = 0.49 * pi := by field_simp; norm_num
    have p1 := Real.pi_gt_d2
    rw [g4] at g3
    norm_num at g3 p1
    linarith
  refine ⟨by linarith, by linarith, by linarith, by linarith⟩

/-- The distance between neighbouring levels, relative to the largest. -/
theorem CauchyGrid.gap {r : ℝ} (hr : r = 11 / 10 ∨ r = 4 / 5 ∧ 7 ≤ N) {k : Nat} (h : 2 * k + 3 < 2 * N) :
    f (2 * k + 3) - f (2 * k + 1) ≤ r * f (2 * N - 1) := by
  obtain ⟨a1, u0, u6, v4, s1, s2, s4, c2, c3, sv, s7⟩ := H.facts rfl rfl
  obtain ⟨⟨t1, -⟩, -⟩ := H.ends rfl rfl
  have b1 := abs_le.mp (H.angle (k := 2 * k + 1) (by omega) (by omega))
  have b2 := abs_le.mp (H.angle (k := 2 * k + 3) (by omega) h)
  push_cast at b1 b2
  have hC : sin (pi / (2 * N) - 2⁻¹ ^ 22) * sin (3 * (pi / (2 * N) - 2⁻¹ ^ 22)) ≤
      cos (arctan (f (2 * k + 1))) * cos (arctan (f (2 * k + 3))) := by
    have s3 : 0 ≤ sin (3 * (pi / (2 * N) - 2⁻¹ ^ 22)) :=
      Real.sin_nonneg_of_nonneg_of_le_pi (by linarith) (by linarith)
    by_cases hk : 3 ≤ 2 * k + 1
    · have q1 := H.cos_ge rfl (k := 2 * k + 1) (m := 3) (by omega) (by omega) (by omega) (by omega)
      have q2 := H.cos_ge rfl (k := 2 * k + 3) (m := 1) (by omega) (by omega) (by omega) (by omega)
      push_cast at q1 q2
      rw [one_mul] at q2
      rw [mul_comm]
      exact mul_le_mul q1 q2 s1.le (le_trans s3 q1)
    · have hN3 := H.three
      have q1 := H.cos_ge rfl (k := 2 * k + 1) (m := 1) (by omega) (by omega) (by omega) (by omega)
      have q2 := H.cos_ge rfl (k := 2 * k + 3) (m := 3) (by omega) (by omega) (by omega) (by omega)
      push_cast at q1 q2
      rw [one_mul] at q1
      exact mul_le_mul q1 q2 s3 (le_trans s1.le q1)
  set u := pi / (2 * N) - 2⁻¹ ^ 22 with hu
  set v := pi / (2 * N) + 2⁻¹ ^ 22 with hv
  have hp := Real.pi_pos
  set a := arctan (f (2 * k + 1)) with ha
  set b := arctan (f (2 * k + 3)) with hb
  have ca : 0 < cos a := Real.cos_arctan_pos _
  have cb : 0 < cos b := Real.cos_arctan_pos _
  have hD : b - a ≤ 2 * v := by rw [hv]; linarith [b1.1, b2.2]
  have hD0 : 2 * u ≤ b - a := by rw [hu]; linarith [b1.2, b2.1]
  have hs : sin (b - a) ≤ 2 * sin v * cos v := by
    rw [← Real.sin_two_mul]
    exact Real.sin_le_sin_of_le_of_le_pi_div_two (by linarith) (by linarith) hD
  have e : f (2 * k + 3) - f (2 * k + 1) = sin (b - a) / (cos a * cos b) := by
    rw [← tan_sub_tan ca.ne' cb.ne', ha, hb, Real.tan_arctan, Real.tan_arctan]
  have h3 : sin (3 * u) = sin u * (3 - 4 * sin u ^ 2) := by rw [Real.sin_three_mul]; ring
  rw [h3] at hC
  have cv : 0 < cos v := by norm_num at c2; linarith
  have hq : sin u ^ 2 ≤ 1 / 4 := by
    have := pow_le_pow_left₀ s1.le s2 2
    norm_num at this ⊢
    linarith
  have hden : 0 < sin u * (sin u * (3 - 4 * sin u ^ 2)) := mul_pos s1 (mul_pos s1 (by linarith))
  have hr0 : 0 ≤ r := by rcases hr with rfl | ⟨rfl, _⟩ <;> norm_num
  have step1 : sin (b - a) / (cos a * cos b) ≤ 2 * sin v * cos v / (sin u * (sin u * (3 - 4 * sin u ^ 2))) :=
    div_le_div₀ (by positivity) hs hden hC
  have sq : sin v ^ 2 ≤ 1.032 ^ 2 * sin u ^ 2 := by
    rw [← mul_pow]
    exact pow_le_pow_left₀ sv.le s4 2
  have hu2 : 0 < sin u ^ 2 := by positivity
  have fin_ : 2 * sin v ^ 2 ≤ r * (sin u * (sin u * (3 - 4 * sin u ^ 2))) := by
    rw [show r * (sin u * (sin u * (3 - 4 * sin u ^ 2))) = sin u ^ 2 * (r * (3 - 4 * sin u ^ 2)) by ring]
    have lower : 2.1301 ≤ r * (3 - 4 * sin u ^ 2) := by
      rcases hr with rfl | ⟨rfl, h7⟩
      · norm_num at hq ⊢
        linarith
      · have := pow_le_pow_left₀ s1.le (s7 h7) 2
        norm_num at this ⊢
        linarith
    have := mul_le_mul_of_nonneg_left lower hu2.le
    norm_num at this sq ⊢
    linarith
  have step2 : 2 * sin v * cos v / (sin u * (sin u * (3 - 4 * sin u ^ 2))) ≤ r * (cos v / sin v) := by
    rw [← mul_div_assoc, div_le_div_iff₀ hden sv]
    have := mul_le_mul_of_nonneg_left fin_ cv.le
    calc 2 * sin v * cos v * sin v = cos v * (2 * sin v ^ 2) := by ring
      _ ≤ _ := this
      _ = _ := by ring
  rw [e]
  exact le_trans step1 (le_trans step2 (mul_le_mul_of_nonneg_left t1 hr0))

/-- The last two levels are far apart. -/
theorem CauchyGrid.wide : f (2 * N - 3) ≤ 35 / 100 * f (2 * N - 1) := by
  obtain ⟨a1, u0, u6, v4, s1, s2, s4, c2, c3, sv, -⟩ := H.facts rfl rfl
  obtain ⟨⟨t1, -⟩, -⟩ := H.ends rfl rfl
  have hN3 := H.three
  have n1 : (3 : ℝ) ≤ N := by exact_mod_cast H.three
  have b1 := abs_le.mp (H.angle (k := 2 * N - 3) (by omega) (by omega))
  rw [Nat.cast_sub (by omega)] at b1
  push_cast at b1
  have hp := Real.pi_pos
  have hN : pi / (2 * N) * (2 * N) = pi := by field_simp
  set h := pi / (2 * N) with hh
  have ha : arctan (f (2 * N - 3)) ≤ pi / 2 - 3 * (h - 2⁻¹ ^ 22) := by
    norm_num at b1 ⊢
    linarith [b1.2]
  set u := h - 2⁻¹ ^ 22 with hu
  set v := h + 2⁻¹ ^ 22 with hv
  have m0 : arctan (f (2 * N - 3)) ∈ Set.Ioo (-(pi / 2)) (pi / 2) :=
    ⟨Real.neg_pi_div_two_lt_arctan _, Real.arctan_lt_pi_div_two _⟩
  have m2 := Real.strictMonoOn_tan.monotoneOn (b := pi / 2 - 3 * u) m0 ⟨by linarith, by linarith⟩ ha
  rw [Real.tan_arctan, Real.tan_pi_div_two_sub, Real.tan_eq_sin_div_cos, inv_div, Real.sin_three_mul, Real.cos_three_mul] at m2
  have sq := Real.sin_sq_add_cos_sq u
  have cu : 0 < cos u := Real.cos_pos_of_mem_Ioo ⟨by linarith, by linarith⟩
  have cv : 0 < cos v := by norm_num at c2; linarith
  have hq : sin u ^ 2 ≤ 1 / 4 := by
    have := pow_le_pow_left₀ s1.le s2 2
    norm_num at this ⊢
    linarith
  have e1 : 4 * cos u ^ 3 - 3 * cos u = cos u * (1 - 4 * sin u ^ 2) := by
    rw [show sin u ^ 2 = 1 - cos u ^ 2 by linarith]
    ring
  have e2 : 3 * sin u - 4 * sin u ^ 3 = sin u * (3 - 4 * sin u ^ 2) := by ring
  rw [e1, e2] at m2
  have w1 : cos u * (1 - 4 * sin u ^ 2) / (sin u * (3 - 4 * sin u ^ 2)) ≤ cos u / sin u * (1 / 3) := by
    rw [mul_div_mul_comm]
    refine mul_le_mul_of_nonneg_left ?_ (by positivity)
    rw [div_le_iff₀ (by linarith)]
    have := sq_nonneg (sin u)
    linarith
  have w2 : cos u / sin u ≤ 1.05 * (cos v / sin v) := by
    rw [← mul_div_assoc, div_le_div_iff₀ s1 sv]
    have g1 := mul_le_mul c3 s4 sv.le (by positivity)
    have g2 := mul_pos cv s1
    norm_num at g1 ⊢
    linarith
  norm_num at w2
  linarith

end

/-- The floats of the table. -/
theorem student_grid (bits : Nat) (h2 : 2 ≤ bits) (h16 : bits ≤ 16) {lib : Lib} (hT : CauchyInv lib.T) (fuel : Nat) :
    ∃ f : Nat → ℚ, (∀ k : Nat, 1 ≤ k → k < 2 * (2 ^ bits - 1) →
      value lib fuel .studentsT (k / (2 * ((2 ^ bits - 1 : Nat) : ℚ))) = .fin (f k)) ∧
      CauchyGrid (2 ^ bits - 1) fun k => (f k : ℝ) := by
  have hq4 : 2 ^ 2 ≤ 2 ^ bits := Nat.pow_le_pow_right (by norm_num) h2
  have hq16 : 2 ^ bits ≤ 2 ^ 16 := Nat.pow_le_pow_right (by norm_num) h16
  obtain ⟨grid, -⟩ := Quantile.grid_facts (q := 2 ^ bits) (by omega) (by omega)
  have ex : ∀ k : Nat, ∃ f : ℚ, 1 ≤ k → k < 2 * (2 ^ bits - 1) →
      value lib fuel .studentsT (k / (2 * ((2 ^ bits - 1 : Nat) : ℚ))) = .fin f ∧
      |arctan f - pi * ((k : ℝ) / (2 * ((2 ^ bits - 1 : Nat) : ℝ)) - 1 / 2)| ≤ 2⁻¹ ^ 22 := by
    intro k
    by_cases hk : 1 ≤ k ∧ k < 2 * (2 ^ bits - 1)
    · obtain ⟨g1, g2, -⟩ := grid (k / (2 * ((2 ^ bits - 1 : Nat) : ℚ))) ⟨k, hk.1, hk.2, rfl⟩
      obtain ⟨f, f1, f2⟩ := student_value hT fuel g1 g2
      rw [Rat.cast_div, Rat.cast_mul, Rat.cast_natCast, Rat.cast_natCast, Rat.cast_ofNat] at f2
      exact ⟨f, fun _ _ => ⟨f1, f2⟩⟩
    · exact ⟨0, fun a b => absurd ⟨a, b⟩ hk⟩
  choose f hf using ex
  exact ⟨f, fun k a b => (hf k a b).1, by omega, by omega, fun k a b => (hf k a b).2⟩

/-- The quantiser for Student's t distribution with one degree of freedom. Neighbouring levels can be as far apart as three
quarters of the largest level, because the quantiles grow fast. -/
theorem student_quantised (bits : Nat) (h2 : 2 ≤ bits) (h16 : bits ≤ 16) {lib : Lib} (hT : CauchyInv lib.T) (fuel : Nat)
    {r : ℚ} (hr : r = 11 / 10 ∨ r = 4 / 5 ∧ 3 ≤ bits) (e0 d0 : Nat → Fl) :
    ∃ e, encoder lib fuel .studentsT bits e0 d0 = some e ∧
      Quantised e bits ⟨r, r * ((2 ^ bits - 1 : Nat) : ℚ), ((2 ^ bits - 1 : Nat) : ℚ)⟩ := by
  have hq4 : 2 ^ 2 ≤ 2 ^ bits := Nat.pow_le_pow_right (by norm_num) h2
  have hq16 : 2 ^ bits ≤ 2 ^ 16 := Nat.pow_le_pow_right (by norm_num) h16
  obtain ⟨e, he, -⟩ := Stochastic.construct_spec (2 ^ bits) (by omega) (value lib fuel .studentsT) e0 d0
  obtain ⟨f, hf, H⟩ := student_grid bits h2 h16 hT fuel
  obtain ⟨t1, t2, t3, t4⟩ := H.top
  have hr5 : 1 / 5 ≤ r := by rcases hr with rfl | ⟨rfl, _⟩ <;> norm_num
  refine ⟨e, he, ascending_quantised h2 (value_isFloat lib fuel .studentsT) he hf ?_ ?_ ?_ ?_ ?_ (by linarith) ?_ ?_⟩
  · intro k a b
    exact_mod_cast H.asc a b
  · have : ((1 / 2 : ℚ) : ℝ) ≤ f (2 * (2 ^ bits - 1) - 1) := by push_cast; exact t1
    exact_mod_cast this
  · exact_mod_cast t2
  · have : ((2 ^ bits - 1 : Nat) : ℚ) ≤ 2 ^ 16 := by exact_mod_cast (by omega : 2 ^ bits - 1 ≤ 2 ^ 16)
    refine le_trans this ?_
    norm_num [fltMax]
  · have : ((-(5 / 4 * f (2 * (2 ^ bits - 1) - 1)) : ℚ) : ℝ) ≤ f 1 := by push_cast; exact t3
    exact_mod_cast this
  · have : ((f 1 + f (2 * (2 ^ bits - 1) - 1) : ℚ) : ℝ) ≤ ((1 / 5 * f (2 * (2 ^ bits - 1) - 1) : ℚ) : ℝ) := by
      push_cast; exact t4
    have h5 : f 1 + f (2 * (2 ^ bits - 1) - 1) ≤ 1 / 5 * f (2 * (2 ^ bits - 1) - 1) := by exact_mod_cast this
    have h6 : 1 / 2 ≤ f (2 * (2 ^ bits - 1) - 1) := by
      have : ((1 / 2 : ℚ) : ℝ) ≤ f (2 * (2 ^ bits - 1) - 1) := by push_cast; exact t1
      exact_mod_cast this
    exact le_trans h5 (mul_le_mul_of_nonneg_right hr5 (by linarith))
  · intro k hk
    have g := H.gap (r := (r : ℝ)) (k := k) (by
      rcases hr with rfl | ⟨rfl, h3⟩
      · left
        norm_num
      · right
        refine ⟨by norm_num, ?_⟩
        have : 2 ^ 3 ≤ 2 ^ bits := Nat.pow_le_pow_right (by norm_num) h3
        omega) hk
    exact_mod_cast g

/-- **C108**: the quantiser for Student's t distribution is coarse for large values, with any number of bits: a value of two
thirds of the largest level is at least 3/10 of the largest level away from all levels. -/
theorem student_coarse (bits : Nat) (h2 : 2 ≤ bits) (h16 : bits ≤ 16) {lib : Lib} (hT : CauchyInv lib.T) (fuel : Nat)
    (e0 d0 : Nat → Fl) :
    ∃ e L, encoder lib fuel .studentsT bits e0 d0 = some e ∧ e.n = 2 ^ bits - 1 ∧ 1 / 2 ≤ L ∧ e.level (e.n - 1) = .fin L ∧
      ∀ s, s < e.n → ∃ y, e.level s = .fin y ∧ y ≤ L ∧ 3 / 10 * L ≤ |y - 2 / 3 * L| := by
  have hq4 : 2 ^ 2 ≤ 2 ^ bits := Nat.pow_le_pow_right (by norm_num) h2
  have hq16 : 2 ^ bits ≤ 2 ^ 16 := Nat.pow_le_pow_right (by norm_num) h16
  obtain ⟨e, he, n1, -, l1, -⟩ := Stochastic.construct_spec (2 ^ bits) (by omega) (value lib fuel .studentsT) e0 d0
  obtain ⟨f, hf, H⟩ := student_grid bits h2 h16 hT fuel
  obtain ⟨t1, -⟩ := H.top
  have t2 := H.wide
  have lev : ∀ s, s < e.n → e.level s = .fin (f (2 * s + 1)) := by
    intro s hs
    rw [l1 s (by omega), ← hf (2 * s + 1) (by omega) (by omega)]
    congr 1
    push_cast
    have : (0 : ℚ) < ((2 ^ bits - 1 : Nat) : ℚ) := by exact_mod_cast (by omega : 0 < 2 ^ bits - 1)
    field_simp
  have mono : ∀ d i, 1 ≤ i → i + d < 2 * (2 ^ bits - 1) → f i ≤ f (i + d) := by
    intro d
    induction d with
    | zero => exact fun i _ _ => le_refl _
    | succ d ih => exact fun i h h' => le_trans (ih i h (by omega)) (by exact_mod_cast (H.asc (k := i + d) (by omega) h').le)
  have t1' : 1 / 2 ≤ f (2 * (2 ^ bits - 1) - 1) := by
    have : ((1 / 2 : ℚ) : ℝ) ≤ f (2 * (2 ^ bits - 1) - 1) := by push_cast; exact t1
    exact_mod_cast this
  have t2' : f (2 * (2 ^ bits - 1) - 3) ≤ 35 / 100 * f (2 * (2 ^ bits - 1) - 1) := by
    have : ((f (2 * (2 ^ bits - 1) - 3) : ℚ) : ℝ) ≤ ((35 / 100 * f (2 * (2 ^ bits - 1) - 1) : ℚ) : ℝ) := by push_cast; exact t2
    exact_mod_cast this
  have last : 2 * (e.n - 1) + 1 = 2 * (2 ^ bits - 1) - 1 := by omega
  refine ⟨e, f (2 * (2 ^ bits - 1) - 1), he, n1, t1', ?_, fun s hs => ⟨_, lev s hs, ?_, ?_⟩⟩
  · rw [lev _ (by omega), last]
  · have := mono (2 * (2 ^ bits - 1) - 1 - (2 * s + 1)) (2 * s + 1) (by omega) (by omega)
    rwa [show 2 * s + 1 + (2 * (2 ^ bits - 1) - 1 - (2 * s + 1)) = 2 * (2 ^ bits - 1) - 1 by omega] at this
  · by_cases hl : s = e.n - 1
    · subst hl
      rw [last, le_abs]
      left
      linarith
    · have := mono (2 * (2 ^ bits - 1) - 3 - (2 * s + 1)) (2 * s + 1) (by omega) (by omega)
      rw [show 2 * s + 1 + (2 * (2 ^ bits - 1) - 3 - (2 * s + 1)) = 2 * (2 ^ bits - 1) - 3 by omega] at this
      rw [le_abs]
      right
      linarith

/-- There is such a function. -/
theorem cauchyInv_exists : ∃ T : ℚ → Fl, CauchyInv T := by
  have ex : ∀ c : ℚ, ∃ x : ℚ, 1 / 10 ^ 6 ≤ c → c ≤ 1 - 1 / 10 ^ 6 → |arctan x - pi * ((c : ℝ) - 1 / 2)| ≤ 2⁻¹ ^ 40 := by
    intro c
    by_cases h : 1 / 10 ^ 6 ≤ c ∧ c ≤ 1 - 1 / 10 ^ 6
    · have c1 : (0 : ℝ) < c := by exact_mod_cast lt_of_lt_of_le (by norm_num : (0 : ℚ) < 1 / 10 ^ 6) h.1
      have c2 : (c : ℝ) < 1 := by exact_mod_cast lt_of_le_of_lt h.2 (by norm_num : (1 : ℚ) - 1 / 10 ^ 6 < 1)
      have m1 := mul_pos Real.pi_pos c1
      have m2 := mul_lt_mul_of_pos_left c2 Real.pi_pos
      obtain ⟨x, hx⟩ := exists_rat_btwn (lt_add_of_pos_right (tan (pi * ((c : ℝ) - 1 / 2))) (by norm_num : (0 : ℝ) < 2⁻¹ ^ 40))
      refine ⟨x, fun _ _ => ?_⟩
      have e : arctan (tan (pi * ((c : ℝ) - 1 / 2))) = pi * ((c : ℝ) - 1 / 2) :=
        Real.arctan_tan (by linarith) (by linarith)
      rw [← e]
      refine le_trans (arctan_dist _ _) ?_
      rw [abs_of_pos (by linarith [hx.1])]
      linarith [hx.2]
    · exact ⟨0, fun a b => absurd ⟨a, b⟩ h⟩
  choose x hx using ex
  exact ⟨fun c => .fin (x c), fun c a b => ⟨x c, rfl, hx c a b⟩⟩

/-- 8 bits. -/
example : ∃ lib : Lib, ∃ e, encoder lib 0 .studentsT 8 (fun _ => .nan) (fun _ => .nan) = some e ∧
    Quantised e 8 ⟨4 / 5, 204, 255⟩ := by
  obtain ⟨T, hT⟩ := cauchyInv_exists
  obtain ⟨e, h1, h2⟩ := student_quantised 8 (by norm_num) (by norm_num) (lib := ⟨fun _ => 0, 0, fun _ => 0, T⟩) hT 0
    (r := 4 / 5) (.inr ⟨rfl, by norm_num⟩) (fun _ => .nan) (fun _ => .nan)
  refine ⟨_, e, h1, ?_⟩
  norm_num at h2
  exact h2

end Dysco.End
