import Verif.WeightLemmas

/-! # Scaling a number by a rounded factor: error analysis with signs -/

namespace Dysco.Fl

theorem abs_rnd (f : Fmt) (x : ℚ) : |rnd f x| = rnd f |x| := by
  rcases le_total 0 x with h | h
  · rw [abs_of_nonneg h, abs_of_nonneg (rnd_nonneg f h)]
  · have h1 : 0 ≤ rnd f (-x) := rnd_nonneg f (by linarith)
    rw [abs_of_nonpos h, rnd_neg, abs_of_nonpos]
    rw [rnd_neg] at h1
    linarith

/-- `a * (L / M)` with two double operations is accurate to `2^-51`. -/
theorem scale64 {a L M : ℚ} (hM : 0 < M) (hf1 : (2 : ℚ) ^ (-900 : ℤ) ≤ L / M)
    (hf2 : L / M ≤ 2 ^ (900 : ℤ)) (ha : a = 0 ∨ (2 : ℚ) ^ (-900 : ℤ) ≤ |a| * (L / M))
    (ha2 : |a| * (L / M) ≤ 2 ^ (900 : ℤ)) :
    ∃ P, Fl.mul r64 (.fin a) (Fl.div r64 (.fin L) (.fin M)) = .fin P ∧
      |P - a * (L / M)| ≤ |a| * (L / M) * (1 / 2251799813685248) := by
  have hpos : 0 < L / M := lt_of_lt_of_le (zp_pos _) hf1
  have z : ∀ {i j : ℤ}, i ≤ j → (2 : ℚ) ^ i ≤ 2 ^ j := fun h => zpow_le_zpow_right₀ (by norm_num) h
  obtain ⟨eS, hS⟩ := r64_normal (x := L / M)
    (by rw [abs_of_pos hpos]; exact le_trans (z (by norm_num)) hf1)
    (by rw [abs_of_pos hpos]; exact le_trans hf2 (z (by norm_num)))
  rw [abs_of_pos hpos] at hS
  have eps : (2 : ℚ) ^ (-53 : ℤ) = 1 / 9007199254740992 := by norm_num
  rw [eps] at hS
  set S := rnd binary64 (L / M) with hSdef
  have hdiv : Fl.div r64 (.fin L) (.fin M) = .fin S := by simp only [Fl.div, if_neg hM.ne', eS]
  rw [hdiv]
  simp only [Fl.mul]
  rcases ha with h0 | h1
  · subst h0
    exact ⟨0, by rw [zero_mul, r64_zero], by simp⟩
  · have hS' := abs_le.mp hS
    have hSlo : L / M * (1 / 2) ≤ S := by nlinarith
    have hShi : S ≤ L / M * 2 := by nlinarith
    have hSpos : 0 < S := by nlinarith
    have haS : |a * S| = |a| * S := by rw [abs_mul, abs_of_pos hSpos]
    have g1 : |a| * (L / M) * (1 / 2) ≤ |a| * S := by
      have := mul_le_mul_of_nonneg_left hSlo (abs_nonneg a)
      linarith
    have g2 : |a| * S ≤ |a| * (L / M) * 2 := by
      have := mul_le_mul_of_nonneg_left hShi (abs_nonneg a)
      linarith
    obtain ⟨eP, hP⟩ := r64_normal (x := a * S)
      (by
        rw [haS]
        refine le_trans ?_ g1
        refine le_trans ?_ (mul_le_mul_of_nonneg_right h1 (by norm_num))
        rw [show (1 / 2 : ℚ) = 2 ^ (-1 : ℤ) by norm_num, ← zpow_add₀ (by norm_num)]
        exact z (by norm_num))
      (by
        rw [haS]
        refine le_trans g2 ?_
        refine le_trans (mul_le_mul_of_nonneg_right ha2 (by norm_num)) ?_
        nth_rw 2 [← zpow_one (2 : ℚ)]
        rw [← zpow_add₀ (by norm_num)]
        exact z (by norm_num))
    refine ⟨_, eP, ?_⟩
    rw [haS, eps] at hP
    set P := rnd binary64 (a * S)
    have e1 : P - a * (L / M) = (P - a * S) + a * (S - L / M) := by ring
    have t := abs_add_le (P - a * S) (a * (S - L / M))
    rw [← e1, abs_mul a] at t
    have t2 := mul_le_mul_of_nonneg_left hS (abs_nonneg a)
    have hX : 0 ≤ |a| * (L / M) := mul_nonneg (abs_nonneg a) hpos.le
    rw [← mul_assoc] at t2
    clear h1 ha2 hf1 hf2 eS hS hSdef
    generalize |a| * (L / M) = X at *
    linarith

/-- Conversion to float of a double that is close to a number not beyond the float `L`. -/
theorem cast32_le {P X L : ℚ} (hL : 0 < L) (hLr : Repr binary32 L) (hL2 : L < 2 ^ (128 : ℤ))
    (hX : |X| ≤ L) (hP : |P - X| ≤ |X| * (1 / 2251799813685248)) :
    ∃ y, Fl.cast r32 (.fin P) = .fin y ∧ |y| ≤ L ∧
      |y - X| ≤ L * (1 / 16000000) + 2 ^ (-150 : ℤ) ∧ (|X| = L → |y| = L) := by
  have hX0 := abs_nonneg X
  have hPa : |P| ≤ |X| + |X| * (1 / 2251799813685248) := by
    have := abs_add_le X (P - X)
    rw [add_sub_cancel] at this
    linarith
  have hPb : |X| - |X| * (1 / 2251799813685248) ≤ |P| := by
    have := abs_sub_abs_le_abs_sub X P
    rw [abs_sub_comm] at this
    linarith
  have hYle : |rnd binary32 P| ≤ L := by
    rw [abs_rnd]
    apply rnd_le_of_le_slack (by decide) hL hLr
    have e25 : (2 : ℚ) ^ (-(binary32.p : ℤ) - 1) = 1 / 33554432 := by norm_num [binary32]
    rw [e25]
    nlinarith
  refine ⟨rnd binary32 P, ?_, hYle, ?_, ?_⟩
  · simp only [Fl.cast]
    exact r32_fin (lt_of_le_of_lt hYle hL2)
  · have hg := rnd_gen_err (f := binary32) P
    have e24 : (2 : ℚ) ^ (-(binary32.p : ℤ)) = 1 / 16777216 := by norm_num [binary32]
    have e150 : binary32.emin - 1 = -150 := by norm_num [binary32]
    rw [e24, e150] at hg
    have t := abs_add_le (rnd binary32 P - P) (P - X)
    rw [sub_add_sub_cancel] at t
    generalize (2 : ℚ) ^ (-150 : ℤ) = u at hg ⊢
    nlinarith
  · intro hXL
    apply le_antisymm hYle
    rw [abs_rnd]
    apply le_rnd_of_slack_le (by decide) hL hLr
    have e26 : (2 : ℚ) ^ (-(binary32.p : ℤ) - 2) = 1 / 67108864 := by norm_num [binary32]
    rw [e26]
    nlinarith

end Dysco.Fl
