import Verif.EndPrepare

/-!
# C108: the precision of all quantisers that a data column can have
-/

namespace Dysco.End

open BytePacker Layout StMan TimeBlock
open Prepare
open Stochastic (Encoder Boundaries Levels construct construct_spec fltMax)
open Quantile (GslNormal trunc_range extended)
open Tools (Distribution)
open Normal

/-! ## Gaussian -/

/-- A point that nearly all of the distribution is below is not small. -/
theorem half_le {y : ℝ} (h : 0.7 ≤ Φ y) : 1 / 2 ≤ y := by
  by_contra hcon
  have h1 := strictMono_Φ (not_le.mp hcon)
  have h2 := Φ_diff_le (x := 0) (y := 1 / 2) (by norm_num)
  rw [Φ_zero] at h2
  norm_num at h h1 h2
  linarith

/-- The Gaussian quantiser: `B` standard deviations is beyond its largest level. -/
theorem gaussian_quantised (bits : Nat) (h2 : 2 ≤ bits) (h16 : bits ≤ 16) {lib : Lib} (hP : Quantile.Accurate lib.P) {B : ℚ}
    (hB : Φ (-(B : ℝ)) + 2⁻¹ ^ 18 ≤ 1 / 2 / ((2 ^ bits - 1 : Nat) : ℝ)) {δ : ℚ}
    (hδ : (sqrt3 : ℝ) * (1 / ((2 ^ bits - 1 : Nat) : ℝ) + 2⁻¹ ^ 17) ≤ φ B * δ) (e0 d0 : Nat → Fl) :
    ∃ N e, (∀ fuel, N ≤ fuel → encoder lib fuel .gaussian bits e0 d0 = some e) ∧
      Quantised e bits ⟨2 * δ, δ, sqrt3 * B⟩ := by
  obtain ⟨N, e, b, l, L, u1, u2, u3, u4⟩ := gaussian_usable bits h2 h16 hP hB hδ e0 d0
  refine ⟨N, e, u1, b, l, L, δ, u2, ?_, le_refl _, ?_, by exact_mod_cast u3⟩
  all_goals
    have hN : 3 ≤ 2 ^ bits - 1 := by
      have : 2 ^ 2 ≤ 2 ^ bits := Nat.pow_le_pow_right (by norm_num) h2
      omega
    have hNR : (3 : ℝ) ≤ ((2 ^ bits - 1 : Nat) : ℝ) := by exact_mod_cast hN
    have h5 : 1 / 2 / ((2 ^ bits - 1 : Nat) : ℝ) ≤ 1 / 6 := by
      rw [div_div, div_le_div_iff₀ (by linarith) (by norm_num)]
      linarith
    have h6 := half_le (y := ((L / sqrt3 : ℚ) : ℝ)) (by
      have := (abs_le.mp u4).1
      generalize 1 / 2 / ((2 ^ bits - 1 : Nat) : ℝ) = u at this h5
      generalize ((L / sqrt3 : ℚ) : ℝ) = y at this
      norm_num at this ⊢
      linarith)
    have h7 : 1 / 2 ≤ L / sqrt3 := by
      have : ((1 / 2 : ℚ) : ℝ) ≤ ((L / sqrt3 : ℚ) : ℝ) := by
        rw [show ((1 / 2 : ℚ) : ℝ) = 1 / 2 by norm_num]
        exact h6
      exact_mod_cast this
    rw [le_div_iff₀ (by norm_num [sqrt3])] at h7
    have hL : 1 / 2 ≤ L := by
      refine le_trans ?_ h7
      norm_num [sqrt3]
  · have hδ0 : 0 ≤ δ := by
      have := u2.gap 0 (by have : e.n + 1 = 2 ^ bits := u2.count; omega)
      have := u2.table.levels.asc 0 1 (by omega) (by have : e.n + 1 = 2 ^ bits := u2.count; omega)
      linarith
    exact div_le_two hδ0 hL
  · exact hL

/-- 16 bits. -/
example : ∃ lib : Lib, ∃ N e, encoder lib N .gaussian 16 (fun _ => .nan) (fun _ => .nan) = some e ∧
    Quantised e 16 ⟨10, 5, 8⟩ := by
  obtain ⟨P, hP⟩ := Quantile.accurate_exists
  obtain ⟨N, e, h1, b, l, L, δ, h2, h3, h4, h5, h6⟩ := gaussian_quantised 16 (by norm_num) (le_refl _)
    (lib := ⟨P, 0, P, fun _ => .nan⟩) hP (B := 23 / 5) (δ := 5)
    (by
      have := Φ_46
      norm_num at this ⊢
      linarith)
    (by
      have := φ_46
      norm_num [sqrt3] at this ⊢
      linarith) (fun _ => .nan) (fun _ => .nan)
  exact ⟨_, N, e, h1 N (le_refl _), b, l, L, δ, h2, by linarith, h4, h5, le_trans h6 (by norm_num [sqrt3])⟩

/-! ## Truncated Gaussian -/

theorem exp_root {n m : Nat} {c : ℝ} (hn : n ≠ 0) (hc : 0 ≤ c) (h : 2.7183 ^ m ≤ c ^ n) : Real.exp ((m : ℝ) / n) ≤ c := by
  apply (pow_le_pow_iff_left₀ (Real.exp_pos _).le hc hn).mp
  rw [← Real.exp_nat_mul, mul_div_cancel₀ _ (by exact_mod_cast hn)]
  exact le_trans (exp_le m) h

theorem Φ_neg_one {τ : ℝ} (h : 1 ≤ τ) : Φ (-τ) ≤ 0.195 := by
  have h1 : Φ (-τ) ≤ Φ (-1) := strictMono_Φ.monotone (by linarith)
  have a1 : 0.35 ≤ φ (1 / 2) := by
    refine le_φ (E := 1.135) ?_ (by norm_num) (by norm_num)
    rw [show ((1 : ℝ) / 2) ^ 2 / 2 = ((1 : ℕ) : ℝ) / (8 : ℕ) by norm_num]
    exact exp_root (by norm_num) (by norm_num) (by norm_num)
  have a2 : 0.299 ≤ φ (3 / 4) := by
    refine le_φ (E := 1.33) ?_ (by norm_num) (by norm_num)
    rw [show ((3 : ℝ) / 4) ^ 2 / 2 = ((9 : ℕ) : ℝ) / (32 : ℕ) by norm_num]
    exact exp_root (by norm_num) (by norm_num) (by norm_num)
  have a3 := Quantile.φ1
  have b1 := le_Φ_diff (B := 1 / 2) (x := 0) (y := 1 / 2) (by norm_num) (by norm_num) (le_refl _)
  have b2 := le_Φ_diff (B := 3 / 4) (x := 1 / 2) (y := 3 / 4) (by norm_num) (by norm_num) (le_refl _)
  have b3 := le_Φ_diff (B := 1) (x := 3 / 4) (y := 1) (by norm_num) (by norm_num) (le_refl _)
  rw [Φ_zero] at b1
  rw [Φ_neg 1] at h1
  norm_num at h1 a1 a2 a3 b1 b2 b3 ⊢
  linarith

/-- The truncated Gaussian quantiser, for all truncations from 1 to 6. -/
theorem truncated_quantised (bits : Nat) (h2 : 2 ≤ bits) (h16 : bits ≤ 16) {lib : Lib} {τ : ℚ} (hτ1 : 1 ≤ τ) (hτ6 : τ ≤ 6)
    (hG : GslNormal τ lib.p0 lib.Q) (fuel : Nat) {δ : ℚ}
    (hδ : (1 - 2 * Φ (-(τ : ℝ))) / ((2 ^ bits - 1 : Nat) : ℝ) + 2⁻¹ ^ 21 ≤ φ τ * δ) (e0 d0 : Nat → Fl) :
    ∃ e, encoder lib fuel .truncatedGaussian bits e0 d0 = some e ∧ Quantised e bits ⟨2 * δ, δ, τ⟩ := by
  have ht1 : (1 : ℝ) ≤ (τ : ℝ) := by exact_mod_cast hτ1
  obtain ⟨e, b, l, L, u1, u2, u3, u4⟩ := truncated_usable bits h2 h16 ht1 (by exact_mod_cast hτ6) hG fuel hδ e0 d0
  have hN : 3 ≤ 2 ^ bits - 1 := by
    have : 2 ^ 2 ≤ 2 ^ bits := Nat.pow_le_pow_right (by norm_num) h2
    omega
  have hNR : (3 : ℝ) ≤ ((2 ^ bits - 1 : Nat) : ℝ) := by exact_mod_cast hN
  have h5 : 1 / 2 / ((2 ^ bits - 1 : Nat) : ℝ) ≤ 1 / 6 := by
    rw [div_div, div_le_div_iff₀ (by linarith) (by norm_num)]
    linarith
  have t0 := (trunc_range ht1).1
  have t1 := Φ_neg_one ht1
  have h6 := mul_le_mul_of_nonneg_right h5 (by linarith : 0 ≤ 1 - 2 * Φ (-(τ : ℝ)))
  have h7 := half_le (y := (L : ℝ)) (by
    have := (abs_le.mp u4).1
    norm_num at this t1 h6 ⊢
    linarith)
  have hL : 1 / 2 ≤ L := by
    have : ((1 / 2 : ℚ) : ℝ) ≤ (L : ℝ) := by
      rw [show ((1 / 2 : ℚ) : ℝ) = 1 / 2 by norm_num]
      exact h7
    exact_mod_cast this
  have hδ0 : 0 ≤ δ := by
    have := u2.gap 0 (by have : e.n + 1 = 2 ^ bits := u2.count; omega)
    have := u2.table.levels.asc 0 1 (by omega) (by have : e.n + 1 = 2 ^ bits := u2.count; omega)
    linarith
  exact ⟨e, u1, b, l, L, δ, u2, div_le_two hδ0 hL, le_refl _, hL, by exact_mod_cast u3⟩

/-- 4 bits and truncation 2.5. -/
example : ∃ lib : Lib, ∃ e, encoder lib 0 .truncatedGaussian 4 (fun _ => .nan) (fun _ => .nan) = some e ∧
    Quantised e 4 ⟨8, 4, 5 / 2⟩ := by
  obtain ⟨p0, Q, h⟩ := Quantile.gslNormal_exists ((5 / 2 : ℚ) : ℝ)
  obtain ⟨e, h1, h2⟩ := truncated_quantised 4 (by norm_num) (by norm_num) (lib := ⟨Q, p0, Q, fun _ => .nan⟩) (τ := 5 / 2)
    (by norm_num) (by norm_num) h 0 (δ := 4) (by
      have h1 := φ_5_2
      have h2 := (trunc_range (τ := 2.5) (by norm_num)).1
      norm_num at h1 h2 ⊢
      linarith) (fun _ => .nan) (fun _ => .nan)
  refine ⟨_, e, h1, ?_⟩
  norm_num at h2
  exact h2

/-! ## Student's t -/

/-- A table is fit for use if the values on the grid of fractions are finite and ascending. -/
theorem ascending_quantised {bits : Nat} (h2 : 2 ≤ bits) {F : ℚ → Fl} (hF : ∀ c, Fl.IsFloat (F c)) {e0 d0 : Nat → Fl}
    {e : Encoder} (he : construct (2 ^ bits) F e0 d0 = some e) {f : Nat → ℚ} {r Λ : ℚ}
    (hf : ∀ k : Nat, 1 ≤ k → k < 2 * (2 ^ bits - 1) → F (k / (2 * ((2 ^ bits - 1 : Nat) : ℚ))) = .fin (f k))
    (asc : ∀ k, 1 ≤ k → k + 1 < 2 * (2 ^ bits - 1) → f k < f (k + 1))
    (top : 1 / 2 ≤ f (2 * (2 ^ bits - 1) - 1)) (hΛ : f (2 * (2 ^ bits - 1) - 1) ≤ Λ) (hΛ2 : Λ ≤ fltMax)
    (low : -(5 / 4 * f (2 * (2 ^ bits - 1) - 1)) ≤ f 1) (hr : 0 ≤ r)
    (sym : f 1 + f (2 * (2 ^ bits - 1) - 1) ≤ r * f (2 * (2 ^ bits - 1) - 1))
    (gap : ∀ k, 2 * k + 3 < 2 * (2 ^ bits - 1) → f (2 * k + 3) - f (2 * k + 1) ≤ r * f (2 * (2 ^ bits - 1) - 1)) :
    Quantised e bits ⟨r, r * Λ, Λ⟩ := by
  have hq : 2 ^ 2 ≤ 2 ^ bits := Nat.pow_le_pow_right (by norm_num) h2
  obtain ⟨e', e1, n1, c1, l1, b1, b2, s1⟩ := construct_spec (2 ^ bits) (by omega) F e0 d0
  obtain rfl : e = e' := by rw [he] at e1; simpa using e1
  have hnc : e.quantCount = 2 ^ bits := by
    show e.n + 1 = _
    omega
  generalize hN : 2 ^ bits - 1 = N at *
  have hN3 : 3 ≤ N := by omega
  have hNQ : (0 : ℚ) < N := by exact_mod_cast (by omega : 0 < N)
  have mono : ∀ d i, 1 ≤ i → i + d + 1 < 2 * N → f i < f (i + d + 1) := by
    intro d
    induction d with
    | zero => exact fun i h h' => asc i h h'
    | succ d ih => exact fun i h h' => lt_trans (ih i h (by omega)) (asc (i + d + 1) (by omega) h')
  have mono' : ∀ i j, 1 ≤ i → i < j → j < 2 * N → f i < f j := by
    intro i j h1 h2 h3
    have := mono (j - i - 1) i h1 (by omega)
    rwa [show i + (j - i - 1) + 1 = j by omega] at this
  have hle : ∀ k, 1 ≤ k → k < 2 * N → f k ≤ f (2 * N - 1) := by
    intro k h1 h3
    by_cases h : k = 2 * N - 1
    · rw [h]
    · exact (mono' k _ h1 (by omega) (by omega)).le
  have hlev : Levels e fun j => f (2 * j + 1) := by
    refine ⟨by omega, ?_, ?_, by omega, ?_⟩
    · intro j hj
      rw [l1 j (by omega), ← hf (2 * j + 1) (by omega) (by omega)]
      congr 1
      push_cast
      field_simp
    · intro i j hij hj
      exact mono' _ _ (by omega) (by omega) (by omega)
    · rw [n1]
      exact s1
  have hbd : Boundaries e fun j => if j = N - 1 then fltMax else f (2 * (j + 1)) := by
    refine ⟨by omega, ?_, ?_, ?_⟩
    · intro j hj
      by_cases h : j = N - 1
      · subst h
        rw [show N - 1 = 2 ^ bits - 2 by omega, b2]
        simp
      · simp only [h, if_false]
        rw [b1 j (by omega), ← hf (2 * (j + 1)) (by omega) (by omega)]
        congr 1
        push_cast
        field_simp
    · intro i j hij hj
      by_cases h : j = N - 1
      · simp only [h, if_true]
        by_cases h' : i = N - 1
        · simp only [h', if_true]
          exact le_refl _
        · simp only [h', if_false]
          exact le_trans (hle _ (by omega) (by omega)) (le_trans hΛ hΛ2)
      · have h' : i ≠ N - 1 := by omega
        simp only [h, h', if_false]
        rcases Nat.lt_or_eq_of_le hij with g | g
        · exact (mono' _ _ (by omega) (by omega) (by omega)).le
        · rw [g]
    · rw [n1]
      simp
  have htop : f (2 * (e.n - 1) + 1) = f (2 * N - 1) := by
    congr 1
    omega
  refine ⟨_, _, f (2 * N - 1), r * f (2 * N - 1),
    ⟨⟨hbd, hlev, htop, by linarith, le_trans hΛ hΛ2⟩, hnc, ?_, low, sym, ?_⟩, ?_, ?_, top, hΛ⟩
  · have := level_repr (by omega) hF he hlev (s := e.n - 1) (by omega)
    rwa [htop] at this
  · intro k hk
    exact gap k (by omega)
  · rw [mul_div_assoc, div_self (by linarith), mul_one]
  · exact mul_le_mul_of_nonneg_left hΛ hr

end Dysco.End
