import Verif.PrepareModel
import Verif.QuantileTables
import Verif.NormSpec
import Verif.FloatBits

/-!
# C79: the quantisers that a data column can have are fit for the round trip
-/

namespace Dysco.Prepare

open Normal Stochastic Quantile Tools

/-- What the round trip theorems (C61, C67, C78) need of a quantiser with `q` symbols: a well-formed table with
largest level `L`, not much asymmetry, and a distance of at most `δ` between neighbours. -/
structure Usable (e : Encoder) (q : Nat) (L δ : ℚ) (b l : Nat → ℚ) : Prop where
  table : Table e b l L
  count : e.quantCount = q
  float : Fl.Repr Fl.binary32 L
  low : -(5 / 4 * L) ≤ l 0
  sym : l 0 + L ≤ δ
  gap : ∀ k, k + 1 < e.n → l (k + 1) - l k ≤ δ

/-- The levels of a table of stored floats are floats. -/
theorem level_repr {q : Nat} (hq : 2 ≤ q) {F : ℚ → Fl} (hF : ∀ c, Fl.IsFloat (F c)) {e0 d0 : Nat → Fl} {e : Encoder}
    (he : construct q F e0 d0 = some e) {l : Nat → ℚ} (hl : Levels e l) {s : Nat} (hs : s < e.n) :
    Fl.Repr Fl.binary32 (l s) := by
  obtain ⟨e', e1, e2, _, e4, _⟩ := construct_spec q hq F e0 d0
  rw [he] at e1
  obtain rfl : e = e' := by simpa using e1
  have h1 := hl.eq s hs
  rw [e4 s (by omega)] at h1
  exact (hF _ _ h1).1

theorem value_isFloat (lib : Lib) (fuel : Nat) (d : Distribution) (c : ℚ) : Fl.IsFloat (value lib fuel d c) := by
  cases d with
  | gaussian =>
    simp only [value, gaussF]
    split
    · intro q h
      simp at h
    · exact Fl.isFloat_cast _
  | uniform => exact Fl.isFloat_cast _
  | studentsT => exact Fl.isFloat_cast _
  | truncatedGaussian => exact Fl.isFloat_cast _

/-- `sqrt3` is what the code computes: the float nearest to a double next to the square root of 3. -/
theorem sqrt3_eq : ∃ d : ℚ, Fl.Repr Fl.binary64 d ∧ |(d : ℝ) - √3| ≤ 2⁻¹ ^ 53 ∧ Fl.rnd Fl.binary32 d = sqrt3 := by
  refine ⟨7800463371553962 / 2 ^ 52, ⟨7800463371553962, -52, by decide, by decide, by norm_num⟩, ?_, ?_⟩
  · have h3 : (0 : ℝ) ≤ 3 := by norm_num
    rw [abs_le]
    constructor
    · have : √3 ≤ ((7800463371553962 / 2 ^ 52 : ℚ) : ℝ) + 2⁻¹ ^ 53 := by
        apply Real.sqrt_le_iff.mpr
        push_cast
        norm_num
      linarith
    · have : ((7800463371553962 / 2 ^ 52 : ℚ) : ℝ) - 2⁻¹ ^ 53 ≤ √3 := by
        apply Real.le_sqrt_of_sq_le
        push_cast
        norm_num
      linarith
  · decide +kernel

theorem err_eq : Fl.rnd Fl.binary64 (1 / 10 ^ 13) = err := by decide +kernel

/-! ## Uniform -/

/-- **C79**, uniform distribution. -/
theorem uniform_usable (bits : Nat) (h2 : 2 ≤ bits) (h16 : bits ≤ 16) (lib : Lib) (fuel : Nat) (e0 d0 : Nat → Fl) :
    ∃ e b l L, encoder lib fuel .uniform bits e0 d0 = some e ∧
      Usable e (2 ^ bits) L (sqrt3 * (2 / ((2 ^ bits - 1 : Nat) : ℚ) + 1 / 10 ^ 6)) b l ∧
      |L - sqrt3 * (1 - 1 / ((2 ^ bits - 1 : Nat) : ℚ))| ≤ 5 / 10 ^ 7 * sqrt3 := by
  have hq4 : 2 ^ 2 ≤ 2 ^ bits := Nat.pow_le_pow_right (by norm_num) h2
  have hq16 : 2 ^ bits ≤ 2 ^ 16 := Nat.pow_le_pow_right (by norm_num) h16
  obtain ⟨e, b, l, w1, w2, w3, w4, _, w6, _⟩ := uniform_table (2 ^ bits) (by omega) hq16 (sd := sqrt3)
    (by norm_num [sqrt3]) (by norm_num [sqrt3]) e0 d0
  have hs0 : 0 < sqrt3 := by norm_num [sqrt3]
  have hn : e.n = 2 ^ bits - 1 := by
    have : e.n + 1 = 2 ^ bits := w2
    omega
  generalize hN : 2 ^ bits - 1 = N at *
  have hN3 : 3 ≤ N := by omega
  have hN3' : (3 : ℚ) ≤ N := by exact_mod_cast hN3
  have hNp : (0 : ℚ) < N := by linarith
  have hinv : (1 : ℚ) / N ≤ 1 / 3 := one_div_le_one_div_of_le (by norm_num) hN3'
  have hinv0 : (0 : ℚ) < 1 / N := by positivity
  have e2 : (2 : ℚ) / N = 2 * (1 / N) := by ring
  have hlev : ∀ s, s < N → ∃ r, l s = sqrt3 * (-1 + (2 * s + 1) * (1 / N)) + r ∧ |r| ≤ 5 / 10 ^ 7 * sqrt3 := by
    intro s hs
    refine ⟨l s - sqrt3 * (-1 + (2 * s + 1) * (1 / N)), by ring, ?_⟩
    have := w6 s hs
    rw [show (2 : ℚ) * ((s + 1 / 2) / N) = (2 * s + 1) * (1 / N) by ring] at this
    exact this
  have htop : |l (N - 1) - sqrt3 * (1 - 1 / N)| ≤ 5 / 10 ^ 7 * sqrt3 := by
    have := w6 (N - 1) (by omega)
    rw [Nat.cast_sub (by omega)] at this
    have e3 : (2 : ℚ) * ((((N : ℚ) - (1 : ℕ)) + 1 / 2) / N) = 2 - 1 / N := by
      push_cast
      field_simp
      ring
    rw [e3] at this
    rw [show (1 : ℚ) - 1 / N = -1 + (2 - 1 / N) by ring]
    exact this
  obtain ⟨r0, l0, hr0⟩ := hlev 0 (by omega)
  have b0 := abs_le.mp hr0
  have bt := abs_le.mp htop
  have hsN : sqrt3 * (1 / N) ≤ sqrt3 * (1 / 3) := mul_le_mul_of_nonneg_left hinv hs0.le
  have hsN0 : 0 < sqrt3 * (1 / N) := mul_pos hs0 hinv0
  have e4 : sqrt3 * (1 - 1 / N) = sqrt3 - sqrt3 * (1 / N) := by ring
  have e5 : sqrt3 * (-1 + (2 * ((0 : ℕ) : ℚ) + 1) * (1 / N)) = -sqrt3 + sqrt3 * (1 / N) := by push_cast; ring
  rw [e5] at l0
  rw [e4] at bt
  have e6 : sqrt3 * (2 / N + 1 / 10 ^ 6) = 2 * (sqrt3 * (1 / N)) + 1 / 10 ^ 6 * sqrt3 := by ring
  have l1 : ∀ k, k + 1 < N → l (k + 1) - l k ≤ 2 * (sqrt3 * (1 / N)) + 1 / 10 ^ 6 * sqrt3 := by
    intro k hk
    obtain ⟨r1, h1, g1⟩ := hlev k (by omega)
    obtain ⟨r2, h2, g2⟩ := hlev (k + 1) (by omega)
    have a1 := abs_le.mp g1
    have a2 := abs_le.mp g2
    have e7 : sqrt3 * (-1 + (2 * ((k + 1 : ℕ) : ℚ) + 1) * (1 / N)) =
        sqrt3 * (-1 + (2 * (k : ℚ) + 1) * (1 / N)) + 2 * (sqrt3 * (1 / N)) := by push_cast; ring
    rw [h1, h2, e7]
    generalize sqrt3 * (1 / (N : ℚ)) = u
    generalize sqrt3 * (-1 + (2 * (k : ℚ) + 1) * (1 / N)) = v
    linarith [a1.1, a1.2, a2.1, a2.2]
  have hL := level_repr (by omega) (value_isFloat lib fuel .uniform) w1 w4 (s := N - 1) (by omega)
  have hs2 : sqrt3 ≤ 2 := by norm_num [sqrt3]
  have hmax : (4 : ℚ) ≤ fltMax := by norm_num [fltMax]
  rw [e6]
  refine ⟨e, b, l, l (N - 1), w1, ⟨⟨w3, w4, by rw [hn], ?_, ?_⟩, w2, hL, ?_, ?_, by rw [hn]; exact l1⟩, htop⟩
  all_goals
    try rw [l0]
    clear htop l1 e6 e5 e4 e2 hlev w6
    generalize sqrt3 * (1 / (N : ℚ)) = u at *
    generalize sqrt3 = v at *
    obtain ⟨bt1, bt2⟩ := bt
    obtain ⟨b01, b02⟩ := b0
    linarith

/-! ## Tables of quantiles of the normal distribution -/

theorem s_le : √(2 * Real.pi) ≤ 2.51 := by
  apply Real.sqrt_le_iff.mpr
  have := Real.pi_lt_d2
  norm_num at this ⊢
  linarith

theorem le_s : 2.5 ≤ √(2 * Real.pi) := by
  apply Real.le_sqrt_of_sq_le
  have := Real.pi_gt_d2
  norm_num at this ⊢
  linarith

theorem exp_le (n : Nat) : Real.exp n ≤ 2.7183 ^ n := by
  rw [← mul_one (n : ℝ), Real.exp_nat_mul]
  apply pow_le_pow_left₀ (Real.exp_pos _).le
  have := Real.exp_one_lt_d9
  norm_num at this ⊢
  linarith

theorem le_exp (n : Nat) : 2.718 ^ n ≤ Real.exp n := by
  rw [← mul_one (n : ℝ), Real.exp_nat_mul]
  apply pow_le_pow_left₀ (by norm_num)
  have := Real.exp_one_gt_d9
  norm_num at this ⊢
  linarith

/-- A lower bound of the density from an upper bound of an exponential. -/
theorem le_φ {a E r : ℝ} (hE : Real.exp (a ^ 2 / 2) ≤ E) (hr : r * (2.51 * E) ≤ 1) (hr0 : 0 ≤ r) : r ≤ φ a := by
  unfold φ
  rw [le_div_iff₀ s_pos, show -(1 / 2) * a ^ 2 = -(a ^ 2 / 2) by ring, Real.exp_neg,
    ← one_div, le_div_iff₀ (Real.exp_pos _)]
  have h0 : 0 ≤ r * √(2 * Real.pi) := mul_nonneg hr0 s_pos.le
  have h1 := mul_le_mul_of_nonneg_left hE h0
  have hE0 : 0 ≤ E := le_trans (Real.exp_pos _).le hE
  have h2 := mul_le_mul_of_nonneg_left (mul_le_mul_of_nonneg_right s_le hE0) hr0
  linarith

/-- An upper bound of the density. -/
theorem φ_le_of {a E r : ℝ} (hE : E ≤ Real.exp (a ^ 2 / 2)) (hE0 : 0 ≤ E) (hr : 1 ≤ r * (2.5 * E)) (hr0 : 0 ≤ r) :
    φ a ≤ r := by
  unfold φ
  rw [div_le_iff₀ s_pos, show -(1 / 2) * a ^ 2 = -(a ^ 2 / 2) by ring, Real.exp_neg,
    ← one_div, div_le_iff₀ (Real.exp_pos _)]
  have h0 : 0 ≤ r * √(2 * Real.pi) := mul_nonneg hr0 s_pos.le
  have h1 := mul_le_mul_of_nonneg_left hE h0
  have h2 := mul_le_mul_of_nonneg_left (mul_le_mul_of_nonneg_right le_s hE0) hr0
  linarith

theorem φ_5_2 : 0.0174 ≤ φ 2.5 := by
  refine le_φ (E := 2.7183 ^ 3 * 1.135) ?_ (by norm_num) (by norm_num)
  rw [show (2.5 : ℝ) ^ 2 / 2 = (3 : ℕ) + 1 / 8 by norm_num, Real.exp_add]
  refine mul_le_mul (exp_le 3) ?_ (Real.exp_pos _).le (by norm_num)
  have h2 : Real.exp (1 / 8) ^ 8 = Real.exp 1 := by
    rw [← Real.exp_nat_mul]
    norm_num
  have h3 := Real.exp_one_lt_d9
  apply (pow_le_pow_iff_left₀ (Real.exp_pos _).le (by norm_num) (by norm_num : (8 : ℕ) ≠ 0)).mp
  rw [h2]
  norm_num at h3 ⊢
  linarith

theorem φ_7_2 : 0.00036 ≤ φ 3.5 := by
  refine le_φ (E := 2.7183 ^ 7) ?_ (by norm_num) (by norm_num)
  exact le_trans (Real.exp_le_exp.mpr (by norm_num)) (exp_le 7)

theorem φ_46 : 0.0000094 ≤ φ 4.6 := by
  refine le_φ (E := 2.7183 ^ 10 * 1.8225) ?_ (by norm_num) (by norm_num)
  refine le_trans (Real.exp_le_exp.mpr (by norm_num : (4.6 : ℝ) ^ 2 / 2 ≤ (10 : ℕ) + 3 / 5)) ?_
  rw [Real.exp_add]
  refine mul_le_mul (exp_le 10) ?_ (Real.exp_pos _).le (by norm_num)
  have h2 : Real.exp (3 / 5) ^ 5 = Real.exp 1 ^ 3 := by
    rw [← Real.exp_nat_mul, ← Real.exp_nat_mul]
    norm_num
  have h3 := Real.exp_one_lt_d9
  apply (pow_le_pow_iff_left₀ (Real.exp_pos _).le (by norm_num) (by norm_num : (5 : ℕ) ≠ 0)).mp
  rw [h2]
  refine le_trans (pow_le_pow_left₀ (Real.exp_pos _).le h3.le 3) ?_
  norm_num

theorem Φ_46 : Φ (-4.6) ≤ 0.0000033 := by
  rw [Φ_neg]
  have h := tail (a := 4.6) (by norm_num)
  have hφ : φ 4.6 ≤ 0.00001518 := by
    refine φ_le_of (E := 2.718 ^ 10 * 1.5) ?_ (by norm_num) (by norm_num) (by norm_num)
    refine le_trans ?_ (Real.exp_le_exp.mpr (by norm_num : ((10 : ℕ) : ℝ) + 1 / 2 ≤ (4.6 : ℝ) ^ 2 / 2))
    rw [Real.exp_add]
    refine mul_le_mul (le_exp 10) ?_ (by norm_num) (Real.exp_pos _).le
    have := Real.add_one_le_exp (1 / 2 : ℝ)
    linarith
  have h2 : φ 4.6 / 4.6 ≤ 0.00001518 / 4.6 := div_le_div_of_nonneg_right hφ (by norm_num)
  norm_num at h2 h ⊢
  linarith

/-- Two points whose probabilities nearly add up to 1 are nearly opposite. -/
theorem near_opposite {x y : ℝ} (hx : 0.0000033 ≤ Φ x) (h4 : 1 / 4 ≤ y)
    (hxy : |Φ x - Φ (-y)| ≤ 2⁻¹ ^ 17) : -(5 / 4 * y) ≤ x := by
  by_cases hle : -y ≤ x
  · linarith
  have hlt : x < -y := not_le.mp hle
  have x46 : -4.6 ≤ x := by
    by_contra hcon
    have := strictMono_Φ (not_le.mp hcon)
    linarith [Φ_46]
  have hb := (abs_le.mp hxy).1
  by_cases h : 3.25 ≤ y
  · have h1 := le_Φ_diff (B := 4.6) x46 hlt.le (by linarith)
    have h2 := mul_le_mul_of_nonneg_right φ_46 (by linarith : 0 ≤ -y - x)
    norm_num at h1 h2 hb h ⊢
    linarith
  · have x35 : -3.5 ≤ x := by
      by_contra hcon
      have h0 := strictMono_Φ (not_le.mp hcon)
      have h1 := le_Φ_diff (B := 3.5) (x := -3.5) (y := -y) (le_refl _) (by linarith) (by linarith)
      have h2 := mul_le_mul_of_nonneg_right φ_7_2 (by linarith : 0 ≤ -y - -3.5)
      norm_num at h0 h1 h2 hb h ⊢
      linarith
    have h1 := le_Φ_diff (B := 3.5) x35 hlt.le (by linarith)
    have h2 := mul_le_mul_of_nonneg_right φ_7_2 (by linarith : 0 ≤ -y - x)
    norm_num at h1 h2 hb h ⊢
    linarith

/-- A table whose levels are quantiles of a (possibly truncated) normal distribution is fit for use. `p` is the probability
that is cut off at each side, `ε` the error of the probabilities, and all levels are within `B` standard deviations. -/
theorem quantile_usable {e : Encoder} {b l : Nat → ℚ} {q : Nat} (hq : 4 ≤ q) (hq2 : q ≤ 2 ^ 16) (hcount : e.quantCount = q)
    (hb : Boundaries e b) (hl : Levels e l) (hf : ∀ s, s < e.n → Fl.Repr Fl.binary32 (l s)) {sd : ℚ} (hs0 : 0 < sd)
    (hs2 : sd ≤ 2) {p ε B : ℝ} (hp : p ≤ 26 / 100) (hε0 : 0 ≤ ε) (hε : ε ≤ 2⁻¹ ^ 18)
    (hacc : ∀ s : Nat, s < q - 1 →
      |Φ ((l s / sd : ℚ) : ℝ) - (((s : ℝ) + 1 / 2) / ((q - 1 : Nat) : ℝ) * (1 - 2 * p) + p)| ≤ ε)
    (hlow : 0.0000033 + ε ≤ 1 / 2 / ((q - 1 : Nat) : ℝ) * (1 - 2 * p) + p)
    (hB : Φ (-B) + ε ≤ 1 / 2 / ((q - 1 : Nat) : ℝ) * (1 - 2 * p) + p) {δ : ℚ}
    (hδ : (sd : ℝ) * ((1 - 2 * p) / ((q - 1 : Nat) : ℝ) + 2 * ε) ≤ φ B * δ) :
    ∃ L, Usable e q L δ b l ∧ |l 0| ≤ sd * B ∧ (L : ℝ) ≤ sd * B ∧
      |Φ ((L / sd : ℚ) : ℝ) - (1 - (1 / 2 / ((q - 1 : Nat) : ℝ) * (1 - 2 * p) + p))| ≤ ε := by
  have hn : e.n = q - 1 := by
    have : e.n + 1 = q := hcount
    omega
  generalize hN : q - 1 = N at *
  have hN3 : 3 ≤ N := by omega
  have hN3' : (3 : ℝ) ≤ N := by exact_mod_cast hN3
  have hNp : (0 : ℝ) < N := by linarith
  have hsR : (0 : ℝ) < sd := by exact_mod_cast hs0
  have hinv : (1 : ℝ) / 2 / N ≤ 1 / 6 := by
    rw [div_div, div_le_div_iff₀ (by positivity) (by norm_num)]
    linarith
  have hinv0 : (0 : ℝ) < 1 / 2 / N := by positivity
  set P : Nat → ℝ := fun s => Φ ((l s / sd : ℚ) : ℝ) with hP
  have h0 := abs_le.mp (hacc 0 (by omega))
  have e0 : (((0 : ℕ) : ℝ) + 1 / 2) / N * (1 - 2 * p) + p = 1 / 2 / N * (1 - 2 * p) + p := by push_cast; ring
  rw [e0] at h0
  have htop : |Φ ((l (N - 1) / sd : ℚ) : ℝ) - (1 - (1 / 2 / N * (1 - 2 * p) + p))| ≤ ε := by
    have := hacc (N - 1) (by omega)
    rw [Nat.cast_sub (by omega)] at this
    have e3 : ((N : ℝ) - (1 : ℕ) + 1 / 2) / N * (1 - 2 * p) + p = 1 - (1 / 2 / N * (1 - 2 * p) + p) := by
      push_cast
      field_simp
      ring
    rwa [e3] at this
  have ht := abs_le.mp htop
  have hpp : 1 / 2 / (N : ℝ) * (1 - 2 * p) + p ≤ 1 / 6 + 26 / 100 * (2 / 3) := by
    have h1 := mul_le_mul_of_nonneg_right hinv (by linarith : 0 ≤ 1 - 2 * p)
    linarith
  have hmono : ∀ s, s < N → 1 / 2 / (N : ℝ) * (1 - 2 * p) + p ≤ ((s : ℝ) + 1 / 2) / N * (1 - 2 * p) + p ∧
      ((s : ℝ) + 1 / 2) / N * (1 - 2 * p) + p ≤ 1 - (1 / 2 / N * (1 - 2 * p) + p) := by
    intro s hs
    have hs' : (s : ℝ) + 1 ≤ N := by exact_mod_cast hs
    have g1 : 1 / 2 / (N : ℝ) ≤ ((s : ℝ) + 1 / 2) / N := by
      apply div_le_div_of_nonneg_right _ hNp.le
      have : (0 : ℝ) ≤ s := by positivity
      linarith
    have g2 : ((s : ℝ) + 1 / 2) / N ≤ 1 - 1 / 2 / N := by
      rw [le_sub_iff_add_le, ← add_div, div_le_one hNp]
      linarith
    have hq0 : 0 ≤ 1 - 2 * p := by linarith
    have k1 := mul_le_mul_of_nonneg_right g1 hq0
    have k2 := mul_le_mul_of_nonneg_right g2 hq0
    constructor <;> linarith
  have hrange : ∀ s, s < N → -B ≤ ((l s / sd : ℚ) : ℝ) ∧ ((l s / sd : ℚ) : ℝ) ≤ B := by
    intro s hs
    obtain ⟨m1, m2⟩ := hmono s hs
    have a := abs_le.mp (hacc s hs)
    constructor
    · apply strictMono_Φ.le_iff_le.mp
      linarith
    · apply strictMono_Φ.le_iff_le.mp
      rw [Φ_neg] at hB
      linarith
  have hy : (1 : ℝ) / 4 ≤ ((l (N - 1) / sd : ℚ) : ℝ) := by
    by_contra hcon
    have h1 := strictMono_Φ (not_le.mp hcon)
    have h2 := Φ_diff_le (x := 0) (y := 1 / 4) (by norm_num)
    rw [Φ_zero] at h2
    norm_num at hε h2 hpp
    linarith [ht.1]
  have hsymP : |Φ ((l 0 / sd : ℚ) : ℝ) - Φ (-((l (N - 1) / sd : ℚ) : ℝ))| ≤ 2 * ε := by
    rw [Φ_neg]
    apply abs_le.mpr
    constructor <;> linarith [h0.1, h0.2, ht.1, ht.2]
  have hlowr := near_opposite (x := ((l 0 / sd : ℚ) : ℝ)) (y := ((l (N - 1) / sd : ℚ) : ℝ)) (by linarith [h0.1]) hy
     (le_trans hsymP (by norm_num at hε ⊢; linarith))
  have hφ := φ_pos B
  -- from a difference in probability to a difference of levels
  have hgap : ∀ x y : ℚ, -B ≤ ((x / sd : ℚ) : ℝ) → ((y / sd : ℚ) : ℝ) ≤ B →
      Φ ((y / sd : ℚ) : ℝ) - Φ ((x / sd : ℚ) : ℝ) ≤ (1 - 2 * p) / N + 2 * ε → y - x ≤ δ := by
    intro x y hx hy' h
    by_cases hxy : y ≤ x
    · have : (0 : ℝ) ≤ δ := by
        have h1 : 0 ≤ (sd : ℝ) * ((1 - 2 * p) / N + 2 * ε) := by
          have : 0 ≤ (1 - 2 * p) / (N : ℝ) := div_nonneg (by linarith) hNp.le
          positivity
        exact nonneg_of_mul_nonneg_right (le_trans h1 hδ) hφ
      have : 0 ≤ δ := by exact_mod_cast this
      linarith
    have hxy' : ((x / sd : ℚ) : ℝ) ≤ ((y / sd : ℚ) : ℝ) :=
      (Rat.cast_le (K := ℝ)).mpr (div_le_div_of_nonneg_right (not_le.mp hxy).le hs0.le)
    have h1 := le_trans (le_Φ_diff hx hxy' hy') h
    have h2 := le_trans (mul_le_mul_of_nonneg_left h1 hsR.le) hδ
    have e1 : (sd : ℝ) * (φ B * (((y / sd : ℚ) : ℝ) - ((x / sd : ℚ) : ℝ))) = φ B * (((y - x : ℚ)) : ℝ) := by
      push_cast
      field_simp
    rw [e1] at h2
    have h3 := le_of_mul_le_mul_left h2 hφ
    exact_mod_cast h3
  have hLle : ((l (N - 1) : ℚ) : ℝ) ≤ sd * B := by
    have := (hrange (N - 1) (by omega)).2
    push_cast at this
    rw [div_le_iff₀ hsR] at this
    linarith
  have hl0 : |((l 0 : ℚ) : ℝ)| ≤ sd * B := by
    obtain ⟨r1, r2⟩ := hrange 0 (by omega)
    push_cast at r1 r2
    rw [div_le_iff₀ hsR] at r2
    rw [le_div_iff₀ hsR] at r1
    exact abs_le.mpr ⟨by linarith, by linarith⟩
  have hLpos : 0 < l (N - 1) := by
    have : (0 : ℝ) < ((l (N - 1) / sd : ℚ) : ℝ) := by linarith
    have : 0 < l (N - 1) / sd := by exact_mod_cast this
    exact (div_pos_iff_of_pos_right hs0).mp this
  have hL6 : l (N - 1) ≤ 20 := by
    have h1 : ((l (N - 1) / sd : ℚ) : ℝ) ≤ 4.6 := by
      apply strictMono_Φ.le_iff_le.mp
      have := Φ_46
      rw [Φ_neg] at this
      linarith [ht.2]
    have h2 : ((l (N - 1) / sd : ℚ) : ℝ) ≤ ((10 : ℚ) : ℝ) := by
      push_cast at h1 ⊢
      linarith
    have h3 : l (N - 1) / sd ≤ 10 := by exact_mod_cast h2
    rw [div_le_iff₀ hs0] at h3
    linarith
  refine ⟨l (N - 1), ⟨⟨hb, hl, by rw [hn], hLpos, le_trans hL6 (by norm_num [fltMax])⟩, hcount, hf _ (by omega), ?_, ?_, ?_⟩,
    ?_, hLle, htop⟩
  · have h1 : ((-(5 / 4 * (l (N - 1) / sd)) : ℚ) : ℝ) ≤ ((l 0 / sd : ℚ) : ℝ) := by
      push_cast at hlowr ⊢
      exact hlowr
    have h2 : -(5 / 4 * (l (N - 1) / sd)) ≤ l 0 / sd := by exact_mod_cast h1
    rw [le_div_iff₀ hs0] at h2
    have e1 : -(5 / 4 * (l (N - 1) / sd)) * sd = -(5 / 4 * l (N - 1)) := by field_simp
    rwa [e1] at h2
  · have h1 := hgap (-l (N - 1)) (l 0) (by
      have := (hrange (N - 1) (by omega)).2
      rw [neg_div, Rat.cast_neg]
      linarith) (hrange 0 (by omega)).2 (by
      rw [neg_div, Rat.cast_neg]
      have : 0 ≤ (1 - 2 * p) / (N : ℝ) := div_nonneg (by linarith) hNp.le
      linarith [(abs_le.mp hsymP).2])
    linarith
  · intro k hk
    rw [hn] at hk
    refine hgap _ _ (hrange k (by omega)).1 (hrange (k + 1) hk).2 ?_
    have a1 := abs_le.mp (hacc k (by omega))
    have a2 := abs_le.mp (hacc (k + 1) hk)
    have e1 : (((k + 1 : ℕ) : ℝ) + 1 / 2) / N * (1 - 2 * p) + p =
        (((k : ℝ) + 1 / 2) / N * (1 - 2 * p) + p) + (1 - 2 * p) / N := by push_cast; ring
    rw [e1] at a2
    linarith [a1.1, a2.2]
  · have := hl0
    exact_mod_cast this

theorem bits_facts {bits : Nat} (h2 : 2 ≤ bits) (h16 : bits ≤ 16) :
    4 ≤ 2 ^ bits ∧ 2 ^ bits ≤ 2 ^ 16 ∧ (1 : ℝ) / 131070 ≤ 1 / 2 / ((2 ^ bits - 1 : Nat) : ℝ) := by
  have a1 : 2 ^ 2 ≤ 2 ^ bits := Nat.pow_le_pow_right (by norm_num) h2
  have a2 : 2 ^ bits ≤ 2 ^ 16 := Nat.pow_le_pow_right (by norm_num) h16
  refine ⟨by omega, a2, ?_⟩
  have h1 : 2 ^ bits - 1 ≤ 65535 := by omega
  have h3 : 1 ≤ 2 ^ bits - 1 := by omega
  have h1' : ((2 ^ bits - 1 : Nat) : ℝ) ≤ 65535 := by exact_mod_cast h1
  have h3' : (1 : ℝ) ≤ ((2 ^ bits - 1 : Nat) : ℝ) := by exact_mod_cast h3
  rw [div_div, div_le_div_iff₀ (by norm_num) (by linarith)]
  linarith

/-- **C79**, Gaussian distribution. `B` standard deviations is beyond the outermost level; `B = 4.6` is possible for every bit
count. The bisection ends, and the table is fit for use. -/
theorem gaussian_usable (bits : Nat) (h2 : 2 ≤ bits) (h16 : bits ≤ 16) {lib : Lib} (hP : Quantile.Accurate lib.P) {B : ℝ}
    (hB : Φ (-B) + 2⁻¹ ^ 18 ≤ 1 / 2 / ((2 ^ bits - 1 : Nat) : ℝ)) {δ : ℚ}
    (hδ : (sqrt3 : ℝ) * (1 / ((2 ^ bits - 1 : Nat) : ℝ) + 2⁻¹ ^ 17) ≤ φ B * δ) (e0 d0 : Nat → Fl) :
    ∃ N e b l L, (∀ fuel, N ≤ fuel → encoder lib fuel .gaussian bits e0 d0 = some e) ∧ Usable e (2 ^ bits) L δ b l ∧
      (L : ℝ) ≤ sqrt3 * B ∧ |Φ ((L / sqrt3 : ℚ) : ℝ) - (1 - 1 / 2 / ((2 ^ bits - 1 : Nat) : ℝ))| ≤ 2⁻¹ ^ 18 := by
  obtain ⟨hq4, hq16, hN⟩ := bits_facts h2 h16
  obtain ⟨N, e, b, l, w1, w2, w3, w4, _, w6, _⟩ := gaussian_table (2 ^ bits) (by omega) hq16 hP (err := err)
    (by norm_num [err]) (sd := sqrt3) (by norm_num [sqrt3]) (by norm_num [sqrt3]) e0 d0
  obtain ⟨L, u1, _, u3, u4⟩ := quantile_usable (p := 0) (ε := 2⁻¹ ^ 18) (B := B) (δ := δ) (sd := sqrt3) hq4 hq16 w2 w3 w4
    (fun s hs => level_repr (by omega) (value_isFloat lib N .gaussian) (w1 N (le_refl _)) w4 hs)
    (by norm_num [sqrt3]) (by norm_num [sqrt3]) (by norm_num) (by positivity) (le_refl _)
    (by
      intro s hs
      have := w6 s hs
      push_cast at this ⊢
      rw [show (1 : ℝ) - 2 * 0 = 1 by norm_num, mul_one, add_zero]
      exact this)
    (by norm_num at hN ⊢; linarith) (by linarith)
    (by
      refine le_trans (le_of_eq ?_) hδ
      norm_num)
  exact ⟨N, e, b, l, L, w1, u1, u3, by rwa [show (1 : ℝ) - 2 * 0 = 1 by norm_num, mul_one, add_zero] at u4⟩

/-- The hypotheses of `gaussian_usable` can be met for 16 bits, with levels within 4.6 standard deviations. -/
example : ∃ lib : Lib, ∃ δ : ℚ, Quantile.Accurate lib.P ∧ Φ (-4.6) + 2⁻¹ ^ 18 ≤ 1 / 2 / ((2 ^ 16 - 1 : Nat) : ℝ) ∧
    (sqrt3 : ℝ) * (1 / ((2 ^ 16 - 1 : Nat) : ℝ) + 2⁻¹ ^ 17) ≤ φ 4.6 * δ := by
  obtain ⟨P, hP⟩ := accurate_exists
  refine ⟨⟨P, 0, P, fun _ => .nan⟩, 5, hP, ?_, ?_⟩
  · have := Φ_46
    norm_num at this ⊢
    linarith
  · have := φ_46
    norm_num [sqrt3] at this ⊢
    linarith

/-- **C79**, truncated Gaussian distribution, with the default of `dscompress`, for truncations from 1 to 6. -/
theorem truncated_usable (bits : Nat) (h2 : 2 ≤ bits) (h16 : bits ≤ 16) {lib : Lib} {τ : ℝ} (hτ1 : 1 ≤ τ) (hτ6 : τ ≤ 6)
    (hG : GslNormal τ lib.p0 lib.Q) (fuel : Nat) {δ : ℚ}
    (hδ : (1 - 2 * Φ (-τ)) / ((2 ^ bits - 1 : Nat) : ℝ) + 2⁻¹ ^ 21 ≤ φ τ * δ) (e0 d0 : Nat → Fl) :
    ∃ e b l L, encoder lib fuel .truncatedGaussian bits e0 d0 = some e ∧ Usable e (2 ^ bits) L δ b l ∧ (L : ℝ) ≤ τ ∧
      |Φ L - (1 - (1 / 2 / ((2 ^ bits - 1 : Nat) : ℝ) * (1 - 2 * Φ (-τ)) + Φ (-τ)))| ≤ 2⁻¹ ^ 22 := by
  obtain ⟨hq4, hq16, hN⟩ := bits_facts h2 h16
  obtain ⟨t0, t1⟩ := trunc_range hτ1
  obtain ⟨e, b, l, w1, w2, w3, w4, _, w6, _⟩ := truncated_table (2 ^ bits) (by omega) hq16 hτ1 hτ6 hG
    (sd := 1) (by norm_num) (by norm_num) e0 d0
  have k1 := mul_le_mul hN (by linarith : (48 / 100 : ℝ) ≤ 1 - 2 * Φ (-τ)) (by norm_num) (by positivity)
  obtain ⟨L, u1, _, u3, u4⟩ := quantile_usable (p := Φ (-τ)) (ε := 2⁻¹ ^ 22) (B := τ) (δ := δ) (sd := 1) hq4 hq16 w2 w3 w4
    (fun s hs => level_repr (by omega) (value_isFloat lib fuel .truncatedGaussian) w1 w4 hs)
    (by norm_num) (by norm_num) t1 (by positivity) (by norm_num) w6
    (by norm_num at k1 ⊢; linarith) (by norm_num at k1 ⊢; linarith)
    (by
      refine le_trans (le_of_eq ?_) hδ
      norm_num)
  refine ⟨e, b, l, L, w1, u1, by simpa using u3, ?_⟩
  rwa [div_one] at u4

/-- The hypotheses of `truncated_usable` can be met. -/
example : ∃ lib : Lib, ∃ δ : ℚ, GslNormal 2.5 lib.p0 lib.Q ∧
    (1 - 2 * Φ (-2.5)) / ((2 ^ 8 - 1 : Nat) : ℝ) + 2⁻¹ ^ 21 ≤ φ 2.5 * δ := by
  obtain ⟨p0, Q, h⟩ := gslNormal_exists 2.5
  refine ⟨⟨Q, p0, Q, fun _ => .nan⟩, 1 / 4, h, ?_⟩
  have h1 := φ_5_2
  have h2 := (trunc_range (τ := 2.5) (by norm_num)).1
  norm_num at h1 h2 ⊢
  linarith

/-- The table does not depend on what was in the memory: two processes build encoders with the same boundaries and levels. -/
theorem encoder_determined (lib : Lib) (fuel : Nat) (d : Distribution) (bits : Nat) (h1 : 1 ≤ bits) (e0 d0 e1 d1 : Nat → Fl) :
    ∃ e e', encoder lib fuel d bits e0 d0 = some e ∧ encoder lib fuel d bits e1 d1 = some e' ∧
      e.n = 2 ^ bits - 1 ∧ e'.n = 2 ^ bits - 1 ∧ (∀ i, i < e.n → e.bound i = e'.bound i) ∧ (∀ i, i ≤ e.n → e.level i = e'.level i) := by
  have hq : 2 ^ 1 ≤ 2 ^ bits := Nat.pow_le_pow_right (by norm_num) h1
  obtain ⟨e, a1, a2, _, a4, a5, a6, a7⟩ := construct_spec (2 ^ bits) (by omega) (value lib fuel d) e0 d0
  obtain ⟨e', b1, b2, _, b4, b5, b6, b7⟩ := construct_spec (2 ^ bits) (by omega) (value lib fuel d) e1 d1
  refine ⟨e, e', a1, b1, a2, b2, ?_, ?_⟩
  · intro i hi
    by_cases h : i < 2 ^ bits - 2
    · rw [a5 i h, b5 i h]
    · obtain rfl : i = 2 ^ bits - 2 := by omega
      rw [a6, b6]
  · intro i hi
    by_cases h : i < 2 ^ bits - 1
    · rw [a4 i h, b4 i h]
    · obtain rfl : i = 2 ^ bits - 1 := by omega
      rw [a7, b7]

end Dysco.Prepare
