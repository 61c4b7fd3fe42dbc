import Verif.QuantileProps

/-!
# The uniform and the truncated Gaussian table in floating point

C71: uniform distribution. C72: truncated Gaussian distribution.
-/

namespace Dysco.Quantile

open Normal Stochastic

/-- From values that are at least `2/10^6` apart to a well-formed table of floats. -/
theorem table_of_values {f : Fl.Fmt} (hf : Wide f) (q : Nat) (hq : 3 ≤ q) {sd : ℚ} (hs0 : 1 / 2 ^ 100 ≤ sd)
    (hs1 : sd ≤ 2 ^ 100) (X : ℚ → ℚ) (hX : ∀ c, OnGrid q c → |X c| ≤ 6)
    (hgap : ∀ c d, OnGrid q c → OnGrid q d → c < d → 2 / 10 ^ 6 ≤ X d - X c) (e0 d0 : Nat → Fl) :
    ∃ e b l, construct q (fun c => Fl.cast Fl.r32 (Fl.mul (Fl.round f) (.fin sd) (.fin (X c)))) e0 d0 = some e ∧
      e.quantCount = q ∧ Boundaries e b ∧ Levels e l ∧
      (∀ s, s < q - 1 → l s = stored f sd (X ((s + 1 / 2) / ((q - 1 : Nat) : ℚ)))) ∧
      (∀ s, s < q - 2 → b s = stored f sd (X ((s + 1) / ((q - 1 : Nat) : ℚ)))) ∧
      (∀ s, s < q - 1 → (0 < s → b (s - 1) < l s) ∧ l s ≤ b s) := by
  have hsd : 0 < sd := lt_of_lt_of_le (by positivity) hs0
  apply construct_well_formed_on q hq _ (fun c => stored f sd (X c))
  constructor
  · intro c hc
    obtain ⟨f1, f2⟩ := stored_fin hf hsd hs1 (hX c hc)
    exact ⟨f1, le_trans f2 (by norm_num [fltMax])⟩
  · intro c d hc hd hcd
    exact stored_lt hf hs0 (hX c hc) (hX d hd) (hgap c d hc hd hcd)

/-! ## C71 -/

theorem uniform_err {c : ℚ} (h0 : 0 ≤ c) (h1 : c ≤ 1) :
    |Fl.rnd extended (-1 + Fl.rnd extended (2 * c)) - (-1 + 2 * c)| ≤ 1 / 2 ^ 60 := by
  have a1 : |Fl.rnd extended (2 * c) - 2 * c| ≤ 1 / 2 ^ 62 := by
    refine le_trans (ext_err _) ?_
    rw [abs_of_nonneg (by linarith)]
    norm_num
    linarith
  have b1 := abs_le.mp a1
  have a2 : |Fl.rnd extended (-1 + Fl.rnd extended (2 * c)) - (-1 + Fl.rnd extended (2 * c))| ≤ 1 / 2 ^ 62 := by
    refine le_trans (ext_err _) ?_
    have : |-1 + Fl.rnd extended (2 * c)| ≤ 2 := by
      apply abs_le.mpr
      norm_num at b1 ⊢
      constructor <;> linarith
    norm_num at this ⊢
    linarith
  have b2 := abs_le.mp a2
  apply abs_le.mpr
  norm_num at b1 b2 ⊢
  constructor <;> linarith

/-- **C71**: the uniform table. For every number of quantities from 3 to `2^16` and every positive standard
deviation in a wide range the table of floats is well formed, and level `s` differs from
`sd * (-1 + 2 (s + 1/2) / (q - 1))` by at most `5/10^7 * sd`. -/
theorem uniform_table (q : Nat) (hq : 3 ≤ q) (hq2 : q ≤ 2 ^ 16) {sd : ℚ} (hs0 : 1 / 2 ^ 100 ≤ sd) (hs1 : sd ≤ 2 ^ 100)
    (e0 d0 : Nat → Fl) :
    ∃ e b l, construct q (uniformLD (Fl.round extended) (Fl.rnd extended) sd) e0 d0 = some e ∧
      e.quantCount = q ∧ Boundaries e b ∧ Levels e l ∧
      (∀ s, s < q - 1 → (0 < s → b (s - 1) < l s) ∧ l s ≤ b s) ∧
      (∀ s, s < q - 1 → |l s - sd * (-1 + 2 * ((s + 1 / 2) / ((q - 1 : Nat) : ℚ)))| ≤ 5 / 10 ^ 7 * sd) ∧
      (∀ s, s < q - 2 → |b s - sd * (-1 + 2 * ((s + 1) / ((q - 1 : Nat) : ℚ)))| ≤ 5 / 10 ^ 7 * sd) := by
  obtain ⟨grid, sep⟩ := grid_facts hq hq2
  have hsd : 0 < sd := lt_of_lt_of_le (by positivity) hs0
  let X : ℚ → ℚ := fun c => Fl.rnd extended (-1 + Fl.rnd extended (2 * c))
  have hXe : ∀ c, OnGrid q c → |X c - (-1 + 2 * c)| ≤ 1 / 2 ^ 60 := fun c hc =>
    uniform_err hc.bounds.1.le hc.bounds.2.le
  have hX : ∀ c, OnGrid q c → |X c| ≤ 6 := by
    intro c hc
    have h := abs_le.mp (hXe c hc)
    have := hc.bounds
    apply abs_le.mpr
    norm_num at h ⊢
    constructor <;> linarith
  obtain ⟨e, b, l, w1, w2, w3, w4, w5, w6, w7⟩ := table_of_values wide_extended q hq hs0 hs1 X hX (by
    intro c d hc hd hcd
    have h1 := abs_le.mp (hXe c hc)
    have h2 := abs_le.mp (hXe d hd)
    have h3 := sep c d hc hd hcd
    norm_num at h1 h2 h3 ⊢
    linarith) e0 d0
  have acc : ∀ c, OnGrid q c → |stored extended sd (X c) - sd * (-1 + 2 * c)| ≤ 5 / 10 ^ 7 * sd := by
    intro c hc
    have h1 := abs_le.mp (stored_err wide_extended hs0 (hX c hc))
    have h2 := abs_le.mp (hXe c hc)
    have h3 := mul_le_mul_of_nonneg_left h2.1 hsd.le
    have h4 := mul_le_mul_of_nonneg_left h2.2 hsd.le
    apply abs_le.mpr
    norm_num at h1 h3 h4 ⊢
    constructor <;> linarith
  refine ⟨e, b, l, w1, w2, w3, w4, w7, ?_, ?_⟩
  · intro s hs
    rw [w5 s hs]
    exact acc _ (onGrid_level hs)
  · intro s hs
    rw [w6 s hs]
    exact acc _ (onGrid_bound (by omega))

/-! ## C72 -/

/-- What is assumed of the two GSL functions: the distribution at the truncation value is accurate to `2^-50`,
the inverse gives a point whose probability is right to `2^-40`. -/
structure GslNormal (τ : ℝ) (p0 : ℚ) (Q : ℚ → ℚ) : Prop where
  cdf : |(p0 : ℝ) - Φ (-τ)| ≤ 2⁻¹ ^ 50
  inv : ∀ c : ℚ, 1 / 10 ^ 6 ≤ c → c ≤ 1 - 1 / 10 ^ 6 → |Φ (Q c) - c| ≤ 2⁻¹ ^ 40

theorem φ1 : 24 / 100 ≤ φ 1 := by
  unfold φ
  rw [le_div_iff₀ s_pos]
  have hs : √(2 * Real.pi) ≤ 2.51 := by
    apply Real.sqrt_le_iff.mpr
    have := Real.pi_lt_d2
    norm_num at this ⊢
    linarith
  have he : (0.603 : ℝ) ≤ Real.exp (-(1 / 2) * 1 ^ 2) := by
    have e : Real.exp (-(1 / 2) * 1 ^ 2) = (Real.exp (1 / 2))⁻¹ := by
      rw [← Real.exp_neg]
      norm_num
    rw [e, le_inv_comm₀ (by norm_num) (Real.exp_pos _)]
    have h2 : Real.exp (1 / 2) ^ 2 = Real.exp 1 := by
      rw [← Real.exp_nat_mul]
      norm_num
    have h3 := Real.exp_one_lt_d9
    apply (pow_le_pow_iff_left₀ (Real.exp_pos _).le (by norm_num) (by norm_num : (2 : ℕ) ≠ 0)).mp
    rw [h2]
    norm_num at h3 ⊢
    linarith
  norm_num at hs he ⊢
  linarith

theorem trunc_range {τ : ℝ} (h1 : 1 ≤ τ) : 0 ≤ Φ (-τ) ∧ Φ (-τ) ≤ 26 / 100 := by
  constructor
  · rw [Φ_neg]
    have : Φ τ ≤ 1 := ge_of_tendsto tendsto_Φ
      (Filter.eventually_atTop.mpr ⟨τ, fun z hz => strictMono_Φ.monotone hz⟩)
    linarith
  · have h2 : Φ (-τ) ≤ Φ (-1) := strictMono_Φ.monotone (by linarith)
    have h3 := le_Φ_diff (B := 1) (x := 0) (y := 1) (by norm_num) (by norm_num) (le_refl _)
    rw [Φ_zero] at h3
    have h4 := φ1
    rw [Φ_neg 1] at h2
    linarith

theorem dbl_err {x : ℚ} (h : |x| ≤ 2) : |Fl.rnd Fl.binary64 x - x| ≤ 1 / 2 ^ 51 := by
  have h1 := Fl.rnd_gen_err (f := Fl.binary64) x
  have e : (2 : ℚ) ^ (-((Fl.binary64.p : ℕ) : ℤ)) = 1 / 2 ^ 53 := by norm_num [Fl.binary64]
  have t : (2 : ℚ) ^ (Fl.binary64.emin - 1) ≤ 1 / 2 ^ 100 := by
    rw [show (1 : ℚ) / 2 ^ 100 = 2 ^ (-100 : ℤ) by norm_num]
    exact zpow_le_zpow_right₀ (by norm_num) (by decide)
  rw [e] at h1
  norm_num at h1 t ⊢
  linarith

theorem truncCdf_err {p0 c : ℚ} (h0 : 0 ≤ c) (h1 : c ≤ 1) (hp0 : -1 / 10 ≤ p0) (hp1 : p0 ≤ 3 / 10) :
    |truncCdf (Fl.rnd extended) (Fl.rnd Fl.binary64) p0 c - (c * (1 - 2 * p0) + p0)| ≤ 1 / 2 ^ 48 := by
  have a1 : |Fl.rnd extended c - c| ≤ 1 / 2 ^ 60 := by
    refine le_trans (ext_err _) ?_
    rw [abs_of_nonneg h0]
    norm_num
    linarith
  have b1 := abs_le.mp a1
  have a2 := dbl_err (x := Fl.rnd extended c) (by apply abs_le.mpr; norm_num at b1 ⊢; constructor <;> linarith)
  have b2 := abs_le.mp a2
  have a3 := dbl_err (x := 1 - 2 * p0) (by apply abs_le.mpr; constructor <;> linarith)
  have b3 := abs_le.mp a3
  set x := Fl.rnd Fl.binary64 (Fl.rnd extended c) with hx
  set y := Fl.rnd Fl.binary64 (1 - 2 * p0) with hy
  have ex : |x - c| ≤ 1 / 2 ^ 51 + 1 / 2 ^ 60 := by
    have := abs_sub_le x (Fl.rnd extended c) c
    linarith
  have ey : |y| ≤ 13 / 10 := by
    apply abs_le.mpr
    norm_num at b3 ⊢
    constructor <;> linarith
  have exy : |x * y - c * (1 - 2 * p0)| ≤ (1 / 2 ^ 51 + 1 / 2 ^ 60) * (13 / 10) + 1 / 2 ^ 51 := by
    have e : x * y - c * (1 - 2 * p0) = (x - c) * y + c * (y - (1 - 2 * p0)) := by ring
    rw [e]
    refine le_trans (abs_add_le _ _) ?_
    rw [abs_mul, abs_mul, abs_of_nonneg h0]
    have g1 := mul_le_mul ex ey (abs_nonneg _) (by positivity)
    have g2 := mul_le_mul h1 a3 (abs_nonneg _) (by norm_num)
    linarith
  have bxy := abs_le.mp exy
  have hc1 : 0 ≤ c * (1 - 2 * p0) := mul_nonneg h0 (by linarith)
  have hc2 : c * (1 - 2 * p0) ≤ 12 / 10 := by
    have := mul_le_mul h1 (by linarith : 1 - 2 * p0 ≤ 12 / 10) (by linarith) (by norm_num)
    linarith
  have a4 := dbl_err (x := x * y) (by apply abs_le.mpr; norm_num at bxy ⊢; constructor <;> linarith)
  have b4 := abs_le.mp a4
  have a5 := dbl_err (x := Fl.rnd Fl.binary64 (x * y) + p0)
    (by apply abs_le.mpr; norm_num at bxy b4 ⊢; constructor <;> linarith)
  have b5 := abs_le.mp a5
  unfold truncCdf
  rw [← hx, ← hy]
  apply abs_le.mpr
  norm_num at bxy b4 b5 ⊢
  constructor <;> linarith

/-- **C72**: the truncated Gaussian table (the default of `dscompress`). For every number of quantities from 3 to
`2^16`, every truncation between 1 and 6 standard deviations and every positive rms in a wide range, if the two GSL
functions are accurate, the table of floats computed in `double` is well formed, and each level and boundary is the
intended quantile of the truncated distribution to within `2^-22` in probability. -/
theorem truncated_table (q : Nat) (hq : 3 ≤ q) (hq2 : q ≤ 2 ^ 16) {τ : ℝ} (hτ1 : 1 ≤ τ) (hτ6 : τ ≤ 6) {p0 : ℚ}
    {Q : ℚ → ℚ} (hG : GslNormal τ p0 Q) {sd : ℚ} (hs0 : 1 / 2 ^ 100 ≤ sd) (hs1 : sd ≤ 2 ^ 100) (e0 d0 : Nat → Fl) :
    ∃ e b l, construct q (truncF (Fl.round Fl.binary64) (Fl.rnd extended) (Fl.rnd Fl.binary64) Q p0 sd) e0 d0 = some e ∧
      e.quantCount = q ∧ Boundaries e b ∧ Levels e l ∧
      (∀ s, s < q - 1 → (0 < s → b (s - 1) < l s) ∧ l s ≤ b s) ∧
      (∀ s : Nat, s < q - 1 → |Φ ((l s / sd : ℚ) : ℝ) -
        (((s : ℝ) + 1 / 2) / ((q - 1 : Nat) : ℝ) * (1 - 2 * Φ (-τ)) + Φ (-τ))| ≤ 2⁻¹ ^ 22) ∧
      (∀ s : Nat, s < q - 2 → |Φ ((b s / sd : ℚ) : ℝ) -
        (((s : ℝ) + 1) / ((q - 1 : Nat) : ℝ) * (1 - 2 * Φ (-τ)) + Φ (-τ))| ≤ 2⁻¹ ^ 22) := by
  obtain ⟨grid, sep⟩ := grid_facts hq hq2
  have hcdf := abs_le.mp hG.cdf
  obtain ⟨t0, t1⟩ := trunc_range hτ1
  have hp0 : -1 / 10 ≤ p0 := by
    have : ((-1 / 10 : ℚ) : ℝ) ≤ p0 := by push_cast; norm_num at hcdf ⊢; linarith
    exact_mod_cast this
  have hp1 : p0 ≤ 3 / 10 := by
    have : (p0 : ℝ) ≤ ((3 / 10 : ℚ) : ℝ) := by push_cast; norm_num at hcdf ⊢; linarith
    exact_mod_cast this
  let C : ℚ → ℚ := truncCdf (Fl.rnd extended) (Fl.rnd Fl.binary64) p0
  let X : ℚ → ℚ := fun c => Q (C c)
  have hC : ∀ c, OnGrid q c → |(C c : ℝ) - ((c : ℝ) * (1 - 2 * Φ (-τ)) + Φ (-τ))| ≤ 2⁻¹ ^ 47 := by
    intro c hc
    obtain ⟨c0, c1⟩ := hc.bounds
    have h := truncCdf_err c0.le c1.le hp0 hp1
    have h' : |(C c : ℝ) - ((c : ℝ) * (1 - 2 * p0) + p0)| ≤ 1 / 2 ^ 48 := by
      have := (Rat.cast_le (K := ℝ)).mpr h
      push_cast at this
      exact this
    have c0' : (0 : ℝ) ≤ c := by exact_mod_cast c0.le
    have c1' : (c : ℝ) ≤ 1 := by exact_mod_cast c1.le
    have e : (C c : ℝ) - ((c : ℝ) * (1 - 2 * Φ (-τ)) + Φ (-τ)) =
        ((C c : ℝ) - ((c : ℝ) * (1 - 2 * p0) + p0)) + (1 - 2 * (c : ℝ)) * ((p0 : ℝ) - Φ (-τ)) := by ring
    rw [e]
    refine le_trans (abs_add_le _ _) ?_
    rw [abs_mul]
    have g : |1 - 2 * (c : ℝ)| ≤ 1 := by apply abs_le.mpr; constructor <;> linarith
    have := mul_le_mul g hG.cdf (abs_nonneg _) (by norm_num)
    norm_num at this h' ⊢
    linarith
  have hlin : ∀ c d : ℚ, OnGrid q c → OnGrid q d → c < d →
      (36 / 10 ^ 7 : ℝ) ≤ ((d : ℝ) * (1 - 2 * Φ (-τ)) + Φ (-τ)) - ((c : ℝ) * (1 - 2 * Φ (-τ)) + Φ (-τ)) := by
    intro c d hc hd hcd
    have h := sep c d hc hd hcd
    have h' : (1 / 131070 : ℝ) ≤ (d : ℝ) - c := by
      have := (Rat.cast_le (K := ℝ)).mpr h
      push_cast at this
      exact this
    have := mul_le_mul h' (by linarith : (48 / 100 : ℝ) ≤ 1 - 2 * Φ (-τ)) (by norm_num) (by linarith)
    norm_num at this ⊢
    linarith
  have hend : ∀ c : ℚ, OnGrid q c → Φ (-τ) + 36 / 10 ^ 7 ≤ (c : ℝ) * (1 - 2 * Φ (-τ)) + Φ (-τ) ∧
      (c : ℝ) * (1 - 2 * Φ (-τ)) + Φ (-τ) ≤ 1 - Φ (-τ) - 36 / 10 ^ 7 := by
    intro c hc
    obtain ⟨g1, g2, _⟩ := grid c hc
    have g1' : (1 / 131070 : ℝ) ≤ c := by
      have := (Rat.cast_le (K := ℝ)).mpr g1
      push_cast at this
      exact this
    have g2' : (1 / 131070 : ℝ) ≤ 1 - c := by
      have := (Rat.cast_le (K := ℝ)).mpr g2
      push_cast at this
      linarith
    have k1 := mul_le_mul g1' (by linarith : (48 / 100 : ℝ) ≤ 1 - 2 * Φ (-τ)) (by norm_num) (by linarith)
    have k2 := mul_le_mul g2' (by linarith : (48 / 100 : ℝ) ≤ 1 - 2 * Φ (-τ)) (by norm_num) (by linarith)
    norm_num at k1 k2 ⊢
    constructor <;> linarith
  have hXp : ∀ c, OnGrid q c → |Φ (X c) - ((c : ℝ) * (1 - 2 * Φ (-τ)) + Φ (-τ))| ≤ 2⁻¹ ^ 39 := by
    intro c hc
    have h1 := hC c hc
    have b1 := abs_le.mp h1
    obtain ⟨e1, e2⟩ := hend c hc
    have r1 : 1 / 10 ^ 6 ≤ C c := by
      have : ((1 / 10 ^ 6 : ℚ) : ℝ) ≤ C c := by push_cast; norm_num at b1 e1 ⊢; linarith
      exact_mod_cast this
    have r2 : C c ≤ 1 - 1 / 10 ^ 6 := by
      have : (C c : ℝ) ≤ ((1 - 1 / 10 ^ 6 : ℚ) : ℝ) := by push_cast; norm_num at b1 e2 ⊢; linarith
      exact_mod_cast this
    have h2 := hG.inv (C c) r1 r2
    have tri := abs_sub_le (Φ (X c)) (C c) ((c : ℝ) * (1 - 2 * Φ (-τ)) + Φ (-τ))
    have num : (2 : ℝ)⁻¹ ^ 40 + 2⁻¹ ^ 47 ≤ 2⁻¹ ^ 39 := by norm_num
    linarith
  have hX : ∀ c, OnGrid q c → |X c| ≤ 6 := by
    intro c hc
    have b := abs_le.mp (hXp c hc)
    obtain ⟨e1, e2⟩ := hend c hc
    have u : (X c : ℝ) ≤ τ := by
      by_contra hcon
      have := strictMono_Φ (not_le.mp hcon)
      rw [Φ_neg] at e2
      norm_num at b e2
      rw [Φ_neg] at b
      linarith [b.2]
    have l : -τ ≤ (X c : ℝ) := by
      by_contra hcon
      have := strictMono_Φ (not_le.mp hcon)
      norm_num at b e1
      linarith [b.1]
    have : |(X c : ℝ)| ≤ ((6 : ℚ) : ℝ) := by
      push_cast
      exact abs_le.mpr ⟨by linarith, by linarith⟩
    exact_mod_cast this
  obtain ⟨e, b, l, w1, w2, w3, w4, w5, w6, w7⟩ := table_of_values wide_double q hq hs0 hs1 X hX (by
    intro c d hc hd hcd
    have h1 := abs_le.mp (hXp c hc)
    have h2 := abs_le.mp (hXp d hd)
    have h3 := hlin c d hc hd hcd
    refine le_trans (by norm_num) (normal_gap (x := X c) (y := X d) ?_)
    norm_num at h1 h2 h3 ⊢
    linarith [h1.2, h2.1]) e0 d0
  have acc : ∀ c, OnGrid q c → |Φ ((stored Fl.binary64 sd (X c) / sd : ℚ) : ℝ) -
      ((c : ℝ) * (1 - 2 * Φ (-τ)) + Φ (-τ))| ≤ 2⁻¹ ^ 22 := by
    intro c hc
    have h1 := stored_prob wide_double hs0 (hX c hc)
    have h2 := hXp c hc
    have tri := abs_sub_le (Φ ((stored Fl.binary64 sd (X c) / sd : ℚ) : ℝ)) (Φ (X c))
      ((c : ℝ) * (1 - 2 * Φ (-τ)) + Φ (-τ))
    have num : (2 / 5 : ℝ) * (4 / 10 ^ 7) + 2⁻¹ ^ 39 ≤ 2⁻¹ ^ 22 := by norm_num
    linarith
  refine ⟨e, b, l, w1, w2, w3, w4, w7, ?_, ?_⟩
  · intro s hs
    rw [w5 s hs]
    have := acc _ (onGrid_level hs)
    push_cast at this ⊢
    exact this
  · intro s hs
    rw [w6 s hs]
    have := acc _ (onGrid_bound (by omega : s + 1 < q - 1))
    push_cast at this ⊢
    exact this

/-- The assumptions about the GSL functions can be met. -/
theorem gslNormal_exists (τ : ℝ) : ∃ p0 Q, GslNormal τ p0 Q := by
  obtain ⟨p0, h1, h2⟩ := exists_rat_btwn (show Φ (-τ) < Φ (-τ) + 2⁻¹ ^ 50 from lt_add_of_pos_right _ (by positivity))
  have hpos : (0 : ℝ) < 2⁻¹ ^ 50 := by positivity
  have hq : ∀ c : ℚ, ∃ z : ℚ, 1 / 10 ^ 6 ≤ c → c ≤ 1 - 1 / 10 ^ 6 → |Φ z - c| ≤ 2⁻¹ ^ 40 := by
    intro c
    by_cases hc : 0 < c ∧ c < 1
    · have c0 : (0 : ℝ) < c := by exact_mod_cast hc.1
      have c1 : (c : ℝ) < 1 := by exact_mod_cast hc.2
      obtain ⟨a, ha⟩ := (tendsto_Φ.eventually (lt_mem_nhds c1)).exists
      obtain ⟨a', ha'⟩ := (tendsto_Φ.eventually (lt_mem_nhds (by linarith : 1 - (c : ℝ) < 1))).exists
      have hlow : Φ (-a') < c := by rw [Φ_neg]; linarith
      have hcont : Continuous Φ := continuous_iff_continuousAt.mpr fun x => (hasDerivAt_Φ x).continuousAt
      have hle : -a' ≤ a := by
        by_contra hcon
        have := strictMono_Φ (not_le.mp hcon)
        linarith
      obtain ⟨x, _, hx⟩ := intermediate_value_Icc hle hcont.continuousOn ⟨hlow.le, ha.le⟩
      obtain ⟨z, z1, z2⟩ := exists_rat_btwn (show x < x + 2⁻¹ ^ 40 from lt_add_of_pos_right _ (by positivity))
      have m1 := Φ_diff_le z1.le
      have m2 := strictMono_Φ.monotone z1.le
      refine ⟨z, fun _ _ => abs_le.mpr ⟨?_, ?_⟩⟩
      · have : (0 : ℝ) < 2⁻¹ ^ 40 := by positivity
        linarith
      · have : (0 : ℝ) < 2⁻¹ ^ 40 := by positivity
        linarith
    · refine ⟨0, fun g1 g2 => absurd ⟨lt_of_lt_of_le (by norm_num) g1, lt_of_le_of_lt g2 (by norm_num)⟩ hc⟩
  choose Q hQ using hq
  exact ⟨p0, Q, abs_le.mpr ⟨by linarith, by linarith⟩, hQ⟩

/-- The default of `dscompress`: 10 bits, truncation at 2.5, rms 1. -/
example : ∃ p0 Q e, GslNormal (5 / 2) p0 Q ∧ construct (2 ^ 10)
    (truncF (Fl.round Fl.binary64) (Fl.rnd extended) (Fl.rnd Fl.binary64) Q p0 1) (fun _ => .nan) (fun _ => .nan) = some e ∧
    ∃ l, Levels e l := by
  obtain ⟨p0, Q, h⟩ := gslNormal_exists (5 / 2)
  obtain ⟨e, _, l, h1, _, _, h4, _⟩ := truncated_table (2 ^ 10) (by norm_num) (by norm_num) (by norm_num) (by norm_num)
    h (sd := 1) (by norm_num) (by norm_num) (fun _ => .nan) (fun _ => .nan)
  exact ⟨p0, Q, e, h, h1, l, h4⟩

/-- A uniform table with 16 bits. -/
example : ∃ e, construct (2 ^ 16) (uniformLD (Fl.round extended) (Fl.rnd extended) (14529495 / 2 ^ 23)) (fun _ => .nan)
    (fun _ => .nan) = some e ∧ ∃ l, Levels e l := by
  obtain ⟨e, _, l, h1, _, _, h4, _⟩ := uniform_table (2 ^ 16) (by norm_num) (le_refl _) (sd := 14529495 / 2 ^ 23)
    (by norm_num) (by norm_num) (fun _ => .nan) (fun _ => .nan)
  exact ⟨e, h1, l, h4⟩

end Dysco.Quantile
