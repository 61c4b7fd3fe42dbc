import Mathlib.Analysis.SpecialFunctions.Gaussian.GaussianIntegral
import Mathlib.Analysis.Calculus.Deriv.MeanValue
import Mathlib.Analysis.Real.Pi.Bounds
import Mathlib.Analysis.Complex.ExponentialBounds
import Mathlib.MeasureTheory.Integral.IntervalIntegral.FundThmCalculus

/-!
# The cumulative normal distribution

Specification side of the quantiser tables: `Φ` is the function that `cumulative` of
stochasticencoder.cc:16-19 approximates, `1/2 + 1/2 erf(x / √2)`, written as an integral.
-/

namespace Dysco.Normal

open Real MeasureTheory intervalIntegral Filter Topology

/-- Density of the standard normal distribution. -/
noncomputable def φ (t : ℝ) : ℝ := exp (-(1 / 2) * t ^ 2) / √(2 * π)

/-- Cumulative standard normal distribution. -/
noncomputable def Φ (x : ℝ) : ℝ := 1 / 2 + ∫ t in (0 : ℝ)..x, φ t

theorem s_pos : 0 < √(2 * π) := Real.sqrt_pos.mpr (by positivity)

theorem continuous_φ : Continuous φ := by unfold φ; fun_prop

theorem φ_pos (t : ℝ) : 0 < φ t := div_pos (exp_pos _) s_pos

theorem φ_neg (t : ℝ) : φ (-t) = φ t := by unfold φ; simp

theorem φ_anti {s t : ℝ} (h : |s| ≤ |t|) : φ t ≤ φ s := by
  unfold φ
  apply div_le_div_of_nonneg_right _ s_pos.le
  apply exp_le_exp.mpr
  have : s ^ 2 ≤ t ^ 2 := sq_le_sq.mpr h
  linarith

theorem φ_le (t : ℝ) : φ t ≤ 2 / 5 := by
  have h : (5 : ℝ) / 2 ≤ √(2 * π) := by
    apply Real.le_sqrt_of_sq_le
    have := Real.pi_gt_d2
    norm_num at this ⊢
    linarith
  have h1 : φ t ≤ φ 0 := φ_anti (by simp)
  have h2 : φ 0 ≤ 2 / 5 := by
    unfold φ
    rw [div_le_iff₀ s_pos]
    have : exp (-(1 / 2) * (0 : ℝ) ^ 2) = 1 := by simp
    linarith
  linarith

theorem hasDerivAt_Φ (x : ℝ) : HasDerivAt Φ (φ x) x := by
  unfold Φ
  have h := (continuous_φ.integral_hasStrictDerivAt 0 x).hasDerivAt
  simpa using h.const_add (1 / 2)

theorem Φ_neg (x : ℝ) : Φ (-x) = 1 - Φ x := by
  have h : ∫ t in (0 : ℝ)..(-x), φ t = - ∫ t in (0 : ℝ)..x, φ t := by
    have h1 := intervalIntegral.integral_comp_neg (a := 0) (b := x) φ
    simp only [φ_neg, neg_zero] at h1
    rw [h1, ← intervalIntegral.integral_symm]
  unfold Φ
  rw [h]
  ring

theorem Φ_zero : Φ 0 = 1 / 2 := by simp [Φ]

theorem Φ_diff_le {x y : ℝ} (h : x ≤ y) : Φ y - Φ x ≤ 2 / 5 * (y - x) := by
  apply Convex.image_sub_le_mul_sub_of_deriv_le (convex_univ) (fun z _ => (hasDerivAt_Φ z).continuousAt.continuousWithinAt)
    (fun z _ => (hasDerivAt_Φ z).differentiableAt.differentiableWithinAt) _ x (Set.mem_univ _) y (Set.mem_univ _) h
  intro z _
  rw [(hasDerivAt_Φ z).deriv]
  exact φ_le z

theorem le_Φ_diff {B x y : ℝ} (hx : -B ≤ x) (h : x ≤ y) (hy : y ≤ B) : φ B * (y - x) ≤ Φ y - Φ x := by
  apply Convex.mul_sub_le_image_sub_of_le_deriv (convex_Icc (-B) B)
    (fun z _ => (hasDerivAt_Φ z).continuousAt.continuousWithinAt)
    (fun z _ => (hasDerivAt_Φ z).differentiableAt.differentiableWithinAt) _ x ⟨hx, le_trans h hy⟩ y
    ⟨le_trans hx h, hy⟩ h
  intro z hz
  rw [interior_Icc] at hz
  rw [(hasDerivAt_Φ z).deriv]
  apply φ_anti
  rw [abs_of_nonneg (by linarith [hz.1, hz.2] : 0 ≤ B)]
  exact abs_le.mpr ⟨hz.1.le, hz.2.le⟩

theorem strictMono_Φ : StrictMono Φ := by
  apply strictMono_of_deriv_pos
  intro x
  rw [(hasDerivAt_Φ x).deriv]
  exact φ_pos x

theorem tendsto_Φ : Tendsto Φ atTop (𝓝 1) := by
  have hi : IntegrableOn φ (Set.Ioi 0) := by
    unfold φ
    exact ((integrable_exp_neg_mul_sq (b := 1 / 2) (by norm_num)).div_const _).integrableOn
  have h := intervalIntegral_tendsto_integral_Ioi 0 hi tendsto_id
  have e : ∫ t in Set.Ioi (0 : ℝ), φ t = 1 / 2 := by
    unfold φ
    rw [MeasureTheory.integral_div, integral_gaussian_Ioi]
    have : π / (1 / 2) = 2 * π := by ring
    rw [this]
    field_simp [s_pos.ne']
  rw [e] at h
  have h2 := h.const_add (1 / 2)
  have e2 : (1 : ℝ) / 2 + 1 / 2 = 1 := by norm_num
  rw [e2] at h2
  exact h2

/-- Tail bound. -/
theorem tail {a : ℝ} (ha : 0 < a) : 1 - φ a / a ≤ Φ a := by
  have hd : ∀ x : ℝ, HasDerivAt φ (-x * φ x) x := by
    intro x
    unfold φ
    have h := ((((hasDerivAt_id x).pow 2).const_mul (-(1 / 2 : ℝ))).exp).div_const (√(2 * π))
    refine h.congr_deriv ?_
    have e2 : (id ^ 2 : ℝ → ℝ) x = x ^ 2 := rfl
    rw [e2]
    push_cast
    simp only [id]
    ring
  have hg : ∀ x : ℝ, 0 < x → HasDerivAt (fun x => Φ x + φ x / x) (φ x + (-x * φ x * x - φ x * 1) / x ^ 2) x := by
    intro x hx
    exact (hasDerivAt_Φ x).add ((hd x).div (hasDerivAt_id x) hx.ne')
  have hanti : AntitoneOn (fun x => Φ x + φ x / x) (Set.Ioi 0) := by
    apply antitoneOn_of_deriv_nonpos (convex_Ioi 0)
    · intro x hx
      exact (hg x hx).continuousAt.continuousWithinAt
    · intro x hx
      rw [interior_Ioi] at hx
      exact (hg x hx).differentiableAt.differentiableWithinAt
    · intro x hx
      rw [interior_Ioi] at hx
      rw [(hg x hx).deriv]
      have hx' : (0 : ℝ) < x := hx
      have e : φ x + (-x * φ x * x - φ x * 1) / x ^ 2 = - (φ x / x ^ 2) := by
        field_simp
        ring
      rw [e]
      have := φ_pos x
      have : 0 < φ x / x ^ 2 := by positivity
      linarith
  have hle : 1 ≤ Φ a + φ a / a := by
    apply le_of_tendsto tendsto_Φ
    filter_upwards [eventually_ge_atTop a] with x hx
    have h1 := hanti (Set.mem_Ioi.mpr ha) (Set.mem_Ioi.mpr (lt_of_lt_of_le ha hx)) hx
    simp only at h1
    have : 0 < φ x / x := div_pos (φ_pos x) (lt_of_lt_of_le ha hx)
    linarith
  linarith

theorem φ6 : (2 : ℝ)⁻¹ ^ 28 ≤ φ 6 := by
  unfold φ
  rw [le_div_iff₀ s_pos]
  have hs : √(2 * π) ≤ 2.51 := by
    apply Real.sqrt_le_iff.mpr
    have := Real.pi_lt_d2
    norm_num at this ⊢
    linarith
  have he : exp (-(1 / 2) * 6 ^ 2) = (exp 1)⁻¹ ^ 18 := by
    rw [← exp_neg, ← exp_nat_mul]
    norm_num
  rw [he]
  have h1 : (2.7182818286 : ℝ)⁻¹ ≤ (exp 1)⁻¹ :=
    inv_anti₀ (exp_pos 1) (le_of_lt Real.exp_one_lt_d9)
  have h2 : (2.7182818286 : ℝ)⁻¹ ^ 18 ≤ (exp 1)⁻¹ ^ 18 := pow_le_pow_left₀ (by norm_num) h1 18
  have h3 : (2 : ℝ)⁻¹ ^ 28 * 2.51 ≤ (2.7182818286 : ℝ)⁻¹ ^ 18 := by norm_num
  have h4 : (2 : ℝ)⁻¹ ^ 28 * √(2 * π) ≤ (2 : ℝ)⁻¹ ^ 28 * 2.51 := mul_le_mul_of_nonneg_left hs (by positivity)
  linarith

theorem Φ_four_half : 1 - 1 / 250000 ≤ Φ (9 / 2) := by
  have h := tail (a := 9 / 2) (by norm_num)
  have hs : (5 : ℝ) / 2 ≤ √(2 * π) := by
    apply Real.le_sqrt_of_sq_le
    have := Real.pi_gt_d2
    norm_num at this ⊢
    linarith
  have he : exp (-(1 / 2) * (9 / 2) ^ 2) ≤ 1 / 24000 := by
    have e1 : -(1 / 2) * (9 / 2 : ℝ) ^ 2 = -(10 + 1 / 8) := by norm_num
    rw [e1, exp_neg, show (1 : ℝ) / 24000 = (24000 : ℝ)⁻¹ by norm_num]
    apply inv_anti₀ (by norm_num)
    rw [exp_add]
    have a1 : (2.718 : ℝ) ^ 10 ≤ exp 10 := by
      have : exp 10 = exp 1 ^ 10 := by rw [← exp_nat_mul]; norm_num
      rw [this]
      apply pow_le_pow_left₀ (by norm_num)
      have := Real.exp_one_gt_d9
      norm_num at this ⊢
      linarith
    have a2 : (1 : ℝ) + 1 / 8 ≤ exp (1 / 8) := by
      have := add_one_le_exp (1 / 8 : ℝ)
      linarith
    have a3 : (24000 : ℝ) ≤ 2.718 ^ 10 * (1 + 1 / 8) := by norm_num
    have a4 : (2.718 : ℝ) ^ 10 * (1 + 1 / 8) ≤ exp 10 * exp (1 / 8) :=
      mul_le_mul a1 a2 (by norm_num) (exp_pos _).le
    linarith
  have hφ : φ (9 / 2) ≤ 1 / 60000 := by
    unfold φ
    rw [div_le_iff₀ s_pos]
    linarith
  have : φ (9 / 2) / (9 / 2) ≤ 1 / 250000 := by
    rw [div_le_iff₀ (by norm_num)]
    linarith
  linarith

end Dysco.Normal
