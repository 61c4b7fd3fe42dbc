import Verif.CompressProps
import Verif.StudentProps

/-!
# C108: every distribution that can be given to `dscompress` has a quantiser that is fit for use
-/

namespace Dysco.Compress

open Tools World StMan End Prepare Normal
open Quantile (GslNormal)

/-- The library functions that a distribution needs are accurate. The truncation is between 1 and 6. -/
def LibFor (libs : Libs) (o : Options Nat Nat) : Prop :=
  match o.distribution with
  | .uniform => True
  | .gaussian => Quantile.Accurate libs.P
  | .truncatedGaussian => ∃ τ : ℚ, 1 ≤ τ ∧ τ ≤ 6 ∧ GslNormal τ (libs.p0 o.truncation) libs.Q
  | .studentsT => CauchyInv (libs.T oneBits)

theorem φ_pos (x : ℝ) : 0 < φ x := by
  unfold φ
  exact div_pos (Real.exp_pos _) s_pos

/-- A rational above a quotient. -/
theorem exists_gap {a b : ℝ} (hb : 0 < b) : ∃ δ : ℚ, a ≤ b * δ := by
  obtain ⟨δ, h⟩ := exists_rat_gt (a / b)
  exact ⟨δ, by rw [div_lt_iff₀ hb] at h; linarith⟩

/-- For all options of `dscompress` with a supported number of bits, the manager makes a quantiser with a definite precision
(once its bisection has ended, for a Gaussian distribution). -/
theorem options_quantised {o : Options Nat Nat} {m : Man} (h : SameSettings m (manager o)) {libs : Libs} (hl : LibFor libs o)
    (h2 : 2 ≤ o.bitsPerFloat) (h16 : o.bitsPerFloat ≤ 16) (e0 d0 : Nat → Fl) :
    ∃ N e g, (∀ fuel, N ≤ fuel → quantiser libs fuel m e0 d0 = some e) ∧ Quantised e o.bitsPerFloat g := by
  simp only [options_quantiser h]
  unfold LibFor at hl
  cases hd : o.distribution with
  | uniform =>
    obtain ⟨e, -, h1, -⟩ := encoder_determined (libs.with_ o) 0 .uniform o.bitsPerFloat (by omega) e0 d0 e0 d0
    exact ⟨0, e, _, fun _ _ => h1, concrete_quantised (.inl ⟨rfl, h2⟩) h16 h1⟩
  | gaussian =>
    rw [hd] at hl
    obtain ⟨-, -, hN⟩ := bits_facts h2 h16
    obtain ⟨δ, hδ⟩ := exists_gap (a := (sqrt3 : ℝ) * (1 / ((2 ^ o.bitsPerFloat - 1 : Nat) : ℝ) + 2⁻¹ ^ 17)) (φ_pos ((23 / 5 : ℚ) : ℝ))
    obtain ⟨N, e, a, b⟩ := gaussian_quantised o.bitsPerFloat h2 h16 (lib := libs.with_ o) hl (B := 23 / 5) (by
      have := Φ_46
      norm_num at this hN ⊢
      linarith) hδ e0 d0
    exact ⟨N, e, _, a, b⟩
  | truncatedGaussian =>
    rw [hd] at hl
    obtain ⟨τ, t1, t6, hG⟩ := hl
    obtain ⟨δ, hδ⟩ := exists_gap (a := (1 - 2 * Φ (-(τ : ℝ))) / ((2 ^ o.bitsPerFloat - 1 : Nat) : ℝ) + 2⁻¹ ^ 21) (φ_pos (τ : ℝ))
    obtain ⟨e, a, b⟩ := truncated_quantised o.bitsPerFloat h2 h16 (lib := libs.with_ o) t1 t6 hG 0 hδ e0 d0
    exact ⟨0, e, _, fun _ _ => a, b⟩
  | studentsT =>
    rw [hd] at hl
    obtain ⟨e, a, b⟩ := student_quantised o.bitsPerFloat h2 h16 (lib := libs.with_ o) hl 0 (.inl rfl) e0 d0
    exact ⟨0, e, _, fun _ _ => a, b⟩

/-- The hypotheses can be met for all options with a truncation from 1 to 6. -/
example (o : Options Nat Nat) : ∃ libs, LibFor libs o := by
  obtain ⟨P, hP⟩ := Quantile.accurate_exists
  obtain ⟨p0, Q, hG⟩ := Quantile.gslNormal_exists ((5 / 2 : ℚ) : ℝ)
  obtain ⟨T, hT⟩ := cauchyInv_exists
  refine ⟨⟨P, fun _ => p0, Q, fun _ => T⟩, ?_⟩
  unfold LibFor
  cases o.distribution
  · exact hP
  · trivial
  · exact hT
  · exact ⟨5 / 2, by norm_num, by norm_num, hG⟩

end Dysco.Compress
