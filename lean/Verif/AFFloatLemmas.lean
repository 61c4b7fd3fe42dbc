import Verif.AFLayout

/-!
# Helper lemmas for C80: relative errors of the antenna-frequency normalisation in float and double
-/

namespace Dysco.AF
open TimeBlock Stochastic

/-! ## Relative errors -/

/-- Bound of the relative change of `sample * factors` by one adjustment of sample and factor. -/
def κ : ℚ := 1 / 15000000

theorem near_mul {s t a b c : ℚ} (hs : |s - 1| ≤ a) (ht : |t - 1| ≤ b) (hc : a + b + a * b ≤ c) :
    |s * t - 1| ≤ c := by
  have e : s * t - 1 = (s - 1) * (t - 1) + ((s - 1) + (t - 1)) := by ring
  have t1 := abs_add_le ((s - 1) * (t - 1)) ((s - 1) + (t - 1))
  have t2 := abs_add_le (s - 1) (t - 1)
  rw [← e, abs_mul] at t1
  have t3 : |s - 1| * |t - 1| ≤ a * b := mul_le_mul hs ht (abs_nonneg _) (le_trans (abs_nonneg _) hs)
  linarith

theorem near_inv {t a c : ℚ} (ht : |t - 1| ≤ a) (ha : a ≤ 1 / 2) (hc : a + 2 * (a * a) ≤ c) :
    0 < t ∧ |t⁻¹ - 1| ≤ c := by
  have h := abs_le.mp ht
  have h0 : 0 < t := by linarith
  have ha0 : 0 ≤ a := le_trans (abs_nonneg _) ht
  refine ⟨h0, ?_⟩
  have e : t⁻¹ - 1 = t⁻¹ * (1 - t) := by field_simp
  rw [e, abs_mul, abs_of_pos (inv_pos.mpr h0), abs_sub_comm]
  have h1 : t⁻¹ ≤ 1 + 2 * a := by
    rw [inv_le_iff_one_le_mul₀ h0]
    nlinarith
  calc t⁻¹ * |t - 1| ≤ (1 + 2 * a) * a :=
        mul_le_mul h1 ht (abs_nonneg _) (by linarith)
    _ ≤ c := by linarith

/-- Double rounding in the normal range, as a factor. -/
theorem r64_factor {x : ℚ} (hx : x = 0 ∨ (2 : ℚ) ^ (-1022 : ℤ) ≤ |x|) (hx2 : |x| ≤ 2 ^ (1000 : ℤ)) :
    ∃ t, Fl.r64 x = .fin (x * t) ∧ |t - 1| ≤ 1 / 9007199254740992 := by
  rcases hx with rfl | hx
  · clear hx2
    exact ⟨1, by rw [Fl.r64_zero, zero_mul], by norm_num⟩
  · obtain ⟨e, h⟩ := Fl.r64_normal hx hx2
    have hx0 : 0 < |x| := lt_of_lt_of_le (Fl.zp_pos _) hx
    have hne : x ≠ 0 := abs_pos.mp hx0
    refine ⟨Fl.rnd Fl.binary64 x / x, ?_, ?_⟩
    · rw [e, mul_div_cancel₀ _ hne]
    · have e1 : Fl.rnd Fl.binary64 x / x - 1 = (Fl.rnd Fl.binary64 x - x) / x := by field_simp
      rw [e1, abs_div, div_le_iff₀ hx0, mul_comm]
      have e2 : (2 : ℚ) ^ (-53 : ℤ) = 1 / 9007199254740992 := by norm_num
      rwa [e2] at h

/-- A rounded quotient or product that is not small. -/
theorem r64_result {x s : ℚ} (h : Fl.r64 x = .fin s) (hs : (2 : ℚ) ^ (-200 : ℤ) ≤ s) :
    ∃ t, s = x * t ∧ |t - 1| ≤ 1 / 9007199254740992 ∧ 0 < x := by
  have z : ∀ {i j : ℤ}, i ≤ j → (2 : ℚ) ^ i ≤ 2 ^ j := fun h => zpow_le_zpow_right₀ (by norm_num) h
  have e : s = Fl.rnd Fl.binary64 x := by
    unfold Fl.r64 Fl.round at h
    split at h
    · exact (Fl.fin.inj h).symm
    · simp at h
  have hx : (2 : ℚ) ^ (-1022 : ℤ) ≤ x := by
    by_contra hn
    have h1 := Fl.rnd_mono (f := Fl.binary64) (by decide) (not_le.mp hn).le
    rw [Fl.rnd_of_repr (f := Fl.binary64) (q := 2 ^ (-1022 : ℤ)) (by decide)
      ⟨1, -1022, by decide, by decide, by norm_num⟩, ← e] at h1
    have h2 : (2 : ℚ) ^ (-200 : ℤ) ≤ 2 ^ (-1022 : ℤ) := le_trans hs h1
    have h3 : (2 : ℚ) ^ (-1022 : ℤ) < 2 ^ (-200 : ℤ) := zpow_lt_zpow_right₀ (by norm_num) (by norm_num)
    exact absurd h2 (not_le.mpr h3)
  have hx0 : 0 < x := lt_of_lt_of_le (Fl.zp_pos _) hx
  have herr : |Fl.rnd Fl.binary64 x - x| ≤ |x| * 2 ^ (-53 : ℤ) :=
    Fl.rnd_rel_err (f := Fl.binary64) (by rw [abs_of_pos hx0]; exact hx)
  refine ⟨s / x, by field_simp, ?_, hx0⟩
  have e1 : s / x - 1 = (s - x) / x := by field_simp
  rw [e1, abs_div, abs_of_pos hx0, div_le_iff₀ hx0, mul_comm]
  have e2 : (2 : ℚ) ^ (-53 : ℤ) = 1 / 9007199254740992 := by norm_num
  rwa [e2, abs_of_pos hx0, ← e] at herr

/-- A double of which the conversion to float is a normal positive number. -/
theorem cast_result {d : Fl} {g : ℚ} (h : Fl.cast Fl.r32 d = .fin g) (hg : (2 : ℚ) ^ (-126 : ℤ) ≤ g) :
    ∃ s t, d = .fin s ∧ g = s * t ∧ |t - 1| ≤ 1 / 16000000 ∧ 2 ^ (-127 : ℤ) ≤ s ∧ s ≤ 2 ^ (129 : ℤ) := by
  cases d with
  | nan => simp [Fl.cast] at h
  | inf n => simp [Fl.cast] at h
  | fin s =>
    have e : g = Fl.rnd Fl.binary32 s ∧ |g| < 2 ^ (128 : ℤ) := by
      simp only [Fl.cast, Fl.r32, Fl.round] at h
      split at h
      · rename_i hlt
        have := Fl.fin.inj h
        exact ⟨this.symm, by rw [← this]; exact hlt⟩
      · simp at h
    have hg0 : 0 < g := lt_of_lt_of_le (Fl.zp_pos _) hg
    have hs0 : 0 < s := by
      by_contra hn
      have h1 := Fl.rnd_mono (f := Fl.binary32) (by decide) (not_lt.mp hn)
      rw [Fl.rnd_zero, ← e.1] at h1
      linarith
    have h126 : (2 : ℚ) ^ (-126 : ℤ) = 2 ^ (-127 : ℤ) * 2 := by norm_num
    have h150 : (2 : ℚ) ^ (-150 : ℤ) = 2 ^ (-127 : ℤ) * (1 / 8388608) := by norm_num
    have hp127 := Fl.zp_pos (-127)
    have herr : |g - s| ≤ s * (1 / 16777000) := by
      rcases le_or_gt ((2 : ℚ) ^ (-126 : ℤ)) s with hle | hlt
      · have := Fl.rnd_rel_err (f := Fl.binary32) (x := s) (by rw [abs_of_pos hs0]; exact hle)
        have e2 : (2 : ℚ) ^ (-(Fl.binary32.p : ℤ)) = 1 / 16777216 := by norm_num [Fl.binary32]
        rw [e2, abs_of_pos hs0, ← e.1] at this
        linarith
      · have h1 := Fl.rnd_err Fl.binary32 s
        have h2 : Fl.ulpExp Fl.binary32 s ≤ -149 := by
          have := Fl.ulpExp_mono Fl.binary32 (x := s) (y := 2 ^ (-126 : ℤ)) hs0.ne'
            (by rw [abs_of_pos hs0, abs_of_pos (Fl.zp_pos _)]; exact hlt.le)
          refine le_trans this ?_
          unfold Fl.ulpExp
          rw [abs_of_pos (Fl.zp_pos _), Fl.log_of_pow]
          decide
        rw [← e.1] at h1
        have h3 : |g - s| ≤ 2 ^ (-150 : ℤ) :=
          le_trans h1 (zpow_le_zpow_right₀ (by norm_num) (by omega))
        rw [h150] at h3
        rw [h126] at hg
        have h4 := (abs_le.mp h3).2
        generalize (2 : ℚ) ^ (-127 : ℤ) = w at *
        refine le_trans h3 ?_
        linarith
    have h4 := abs_le.mp herr
    refine ⟨s, g / s, rfl, by field_simp, ?_, ?_, ?_⟩
    · have e1 : g / s - 1 = (g - s) / s := by field_simp
      rw [e1, abs_div, abs_of_pos hs0, div_le_iff₀ hs0, mul_comm]
      linarith
    · rw [h126] at hg
      generalize (2 : ℚ) ^ (-127 : ℤ) = w at *
      linarith
    · have h5 := (abs_lt.mp e.2).2
      have h129 : (2 : ℚ) ^ (129 : ℤ) = 2 ^ (128 : ℤ) * 2 := by norm_num
      rw [h129]
      generalize (2 : ℚ) ^ (128 : ℤ) = w at *
      linarith

/-! ## The drift -/

/-- Bound of the relative mismatch after `k` adjustments. -/
def drift (k : Nat) : ℚ := (1 + κ) ^ k - 1

theorem drift_nonneg (k : Nat) : 0 ≤ drift k := by
  unfold drift
  have : (1 : ℚ) ≤ (1 + κ) ^ k := one_le_pow₀ (by norm_num [κ])
  linarith

theorem drift_mono {k k' : Nat} (h : k ≤ k') : drift k ≤ drift k' := by
  unfold drift
  have : (1 + κ) ^ k ≤ (1 + κ) ^ k' := pow_le_pow_right₀ (by norm_num [κ]) h
  linarith

theorem drift_le {k : Nat} (h : k ≤ 2000010) : drift k ≤ k * (1 / 12500000) := by
  -- `(1 + κ)^k * (1 - kκ) ≤ 1`
  have key : ∀ k : Nat, (1 + κ) ^ k * (1 - k * κ) ≤ 1 := by
    intro k
    induction k with
    | zero => simp
    | succ k ih =>
      have hκ : (0 : ℚ) < κ := by norm_num [κ]
      have hp : (0 : ℚ) < (1 + κ) ^ k := by positivity
      have e : (1 + κ) * (1 - (k + 1 : ℕ) * κ) ≤ 1 - k * κ := by
        push_cast
        have : (0 : ℚ) ≤ k * (κ * κ) := by positivity
        nlinarith
      calc (1 + κ) ^ (k + 1) * (1 - (k + 1 : ℕ) * κ) = (1 + κ) ^ k * ((1 + κ) * (1 - (k + 1 : ℕ) * κ)) := by
            rw [pow_succ]; ring
        _ ≤ (1 + κ) ^ k * (1 - k * κ) := mul_le_mul_of_nonneg_left e hp.le
        _ ≤ 1 := ih
  have hk := key k
  have hkq : (k : ℚ) ≤ 2000010 := by exact_mod_cast h
  have hk0 : (0 : ℚ) ≤ k := Nat.cast_nonneg k
  clear key
  unfold drift
  unfold κ at *
  generalize (1 + 1 / 15000000 : ℚ) ^ k = E at *
  have hpos : (0 : ℚ) < 1 - k * (1 / 15000000) := by linarith
  have h1 : E ≤ 1 / (1 - k * (1 / 15000000)) := by rwa [le_div_iff₀ hpos]
  have h2 : 1 / (1 - k * (1 / 15000000)) ≤ 1 + (k : ℚ) * (1 / 12500000) := by
    rw [div_le_iff₀ hpos]
    nlinarith
  linarith

theorem drift_half {k : Nat} (h : k ≤ 2000010) : drift k ≤ 1 / 2 := by
  have h1 := drift_le h
  have hkq : (k : ℚ) ≤ 2000010 := by exact_mod_cast h
  linarith

/-- One more factor close to 1. -/
theorem drift_step {w x t : ℚ} {k : Nat} (h : |w - x| ≤ |x| * drift k) (ht : |t - 1| ≤ κ) :
    |w * t - x| ≤ |x| * drift (k + 1) := by
  have e : w * t - x = (w - x) * t + x * (t - 1) := by ring
  have t1 := abs_add_le ((w - x) * t) (x * (t - 1))
  rw [← e, abs_mul, abs_mul] at t1
  have hκ : (0 : ℚ) < κ := by norm_num [κ]
  have h1 : |t| ≤ 1 + κ := by
    have := abs_le.mp ht
    rw [abs_le]
    constructor <;> linarith
  have h2 : |w - x| * |t| ≤ |x| * drift k * (1 + κ) :=
    mul_le_mul h h1 (abs_nonneg _) (mul_nonneg (abs_nonneg _) (drift_nonneg k))
  have h3 : |x| * |t - 1| ≤ |x| * κ := mul_le_mul_of_nonneg_left ht (abs_nonneg _)
  have e2 : drift (k + 1) = drift k * (1 + κ) + κ := by
    unfold drift
    rw [pow_succ]
    ring
  rw [e2]
  linarith

/-! ## One component -/

/-- The component `b` of a sample, with stored factors `m`, `m1` and `m2`, belongs to the component `a` of
the original sample: NaN stays NaN, infinite stays not finite, and if the factors are normal numbers then
`b * factors` is `a` up to the drift. -/
def Comp (k : Nat) (m m1 m2 a b : Fl) : Prop :=
  (a = .nan → b = .nan) ∧ (a.isFinite = false → b.isFinite = false) ∧
  ∀ g g1 g2 x, m = .fin g → m1 = .fin g1 → m2 = .fin g2 → (2 : ℚ) ^ (-126 : ℤ) ≤ g →
    (2 : ℚ) ^ (-126 : ℤ) ≤ g1 → (2 : ℚ) ^ (-126 : ℤ) ≤ g2 → a = .fin x →
    ∃ u, b = .fin u ∧ |u * (g * (g1 * g2)) - x| ≤ |x| * drift k

theorem Comp.mono {k k' : Nat} {m m1 m2 a b : Fl} (h : Comp k m m1 m2 a b) (hk : k ≤ k') :
    Comp k' m m1 m2 a b := by
  refine ⟨h.1, h.2.1, ?_⟩
  intro g g1 g2 x e1 e2 e3 h1 h2 h3 e
  obtain ⟨u, eu, hu⟩ := h.2.2 g g1 g2 x e1 e2 e3 h1 h2 h3 e
  exact ⟨u, eu, le_trans hu (mul_le_mul_of_nonneg_left (drift_mono hk) (abs_nonneg _))⟩

/-- The order of the factors does not matter. -/
theorem Comp.swap {k : Nat} {m m1 m2 a b : Fl} (h : Comp k m m1 m2 a b) : Comp k m1 m m2 a b := by
  refine ⟨h.1, h.2.1, ?_⟩
  intro g g1 g2 x e1 e2 e3 h1 h2 h3 e
  obtain ⟨u, eu, hu⟩ := h.2.2 g1 g g2 x e2 e1 e3 h2 h1 h3 e
  refine ⟨u, eu, ?_⟩
  rwa [show g * (g1 * g2) = g1 * (g * g2) by ring]

theorem Comp.swap2 {k : Nat} {m m1 m2 a b : Fl} (h : Comp k m m1 m2 a b) : Comp k m m2 m1 a b := by
  refine ⟨h.1, h.2.1, ?_⟩
  intro g g1 g2 x e1 e2 e3 h1 h2 h3 e
  obtain ⟨u, eu, hu⟩ := h.2.2 g g2 g1 x e1 e3 e2 h1 h3 h2 e
  refine ⟨u, eu, ?_⟩
  rwa [show g1 * g2 = g2 * g1 by ring]

/-- A float that is a normal positive number. -/
def Normal (x : Fl) : Prop := ∃ g, x = .fin g ∧ (2 : ℚ) ^ (-126 : ℤ) ≤ g

/-- If dividing a normal factor gives a normal factor, then the divisor is positive. -/
theorem div_normal {g g' : ℚ} (hg : (2 : ℚ) ^ (-126 : ℤ) ≤ g) {f : Fl}
    (h : Fl.cast Fl.r32 (Fl.div Fl.r64 (.fin g) f) = .fin g') (hg' : (2 : ℚ) ^ (-126 : ℤ) ≤ g') :
    ∃ q t, f = .fin q ∧ 0 < q ∧ g' * q = g * t ∧ |t - 1| ≤ 1 / 15900000 := by
  obtain ⟨s, t, es, eg, ht, hs, _⟩ := cast_result h hg'
  have hg0 : 0 < g := lt_of_lt_of_le (Fl.zp_pos _) hg
  have hs0 : 0 < s := lt_of_lt_of_le (Fl.zp_pos _) hs
  cases f with
  | nan => simp [Fl.div] at es
  | inf n =>
    simp only [Fl.div] at es
    have := Fl.fin.inj es
    linarith
  | fin q =>
    simp only [Fl.div] at es
    by_cases hq0 : q = 0
    · rw [if_pos hq0, if_neg hg0.ne'] at es
      simp at es
    · rw [if_neg hq0] at es
      obtain ⟨t', e', ht', hpos⟩ := r64_result es
        (le_trans (zpow_le_zpow_right₀ (by norm_num) (by norm_num)) hs)
      have hq : 0 < q := by
        by_contra hn
        have : g / q ≤ 0 := div_nonpos_of_nonneg_of_nonpos hg0.le (not_lt.mp hn)
        linarith
      refine ⟨q, t' * t, rfl, hq, ?_, ?_⟩
      · rw [eg, e']
        field_simp
      · exact near_mul ht' ht (by norm_num)

theorem two_mul_le {a b : ℚ} {i j k : ℤ} (ha : a ≤ 2 ^ i) (hb : b ≤ 2 ^ j) (hb0 : 0 ≤ b)
    (hk : i + j ≤ k) : a * b ≤ 2 ^ k := by
  refine le_trans (mul_le_mul ha hb hb0 (Fl.zp_pos _).le) ?_
  rw [← zpow_add₀ (by norm_num)]
  exact zpow_le_zpow_right₀ (by norm_num) hk

theorem le_two_mul {a b : ℚ} {i j k : ℤ} (ha : 2 ^ i ≤ a) (hb : 2 ^ j ≤ b) (hk : k ≤ i + j) :
    2 ^ k ≤ a * b := by
  refine le_trans ?_ (mul_le_mul ha hb (Fl.zp_pos _).le (le_trans (Fl.zp_pos _).le ha))
  rw [← zpow_add₀ (by norm_num)]
  exact zpow_le_zpow_right₀ (by norm_num) hk

/-- Range of `w` from the range of `w * G`. -/
theorem range_of_mul {w G : ℚ} (hG1 : (2 : ℚ) ^ (-400 : ℤ) ≤ G) (hG2 : G ≤ 2 ^ (400 : ℤ))
    (h1 : w = 0 ∨ (2 : ℚ) ^ (-200 : ℤ) ≤ |w| * G) (h2 : |w| * G ≤ 2 ^ (200 : ℤ)) :
    (w = 0 ∨ (2 : ℚ) ^ (-1022 : ℤ) ≤ |w|) ∧ |w| ≤ 2 ^ (1000 : ℤ) := by
  constructor
  · rcases h1 with h1 | h1
    · exact Or.inl h1
    · right
      by_contra hn
      have h3 : |w| * G ≤ 2 ^ (-622 : ℤ) :=
        two_mul_le (not_le.mp hn).le hG2 (le_trans (Fl.zp_pos _).le hG1) (by norm_num)
      have h4 : (2 : ℚ) ^ (-622 : ℤ) < 2 ^ (-200 : ℤ) := zpow_lt_zpow_right₀ (by norm_num) (by norm_num)
      exact absurd (le_trans h1 h3) (not_le.mpr h4)
  · by_contra hn
    have h3 : (2 : ℚ) ^ (600 : ℤ) ≤ |w| * G := le_two_mul (not_le.mp hn).le hG1 (by norm_num)
    have h4 : (2 : ℚ) ^ (200 : ℤ) < 2 ^ (600 : ℤ) := zpow_lt_zpow_right₀ (by norm_num) (by norm_num)
    exact absurd (le_trans h3 h2) (not_le.mpr h4)

/-- A float component is zero or in the middle of the range of doubles. -/
theorem float_range {x : ℚ} (h : Fl.Repr Fl.binary32 x ∧ |x| < 2 ^ (128 : ℤ)) :
    x = 0 ∨ (2 : ℚ) ^ (-149 : ℤ) ≤ |x| := by
  by_cases hx : x = 0
  · exact Or.inl hx
  · exact Or.inr (Fl.repr32_ge h.1.abs (abs_pos.mpr hx))

/-- Scaling a component while dividing the first factor. -/
theorem Comp.change {k : Nat} {m m1 m2 a b f : Fl} (h : Comp k m m1 m2 a b) (hk : k ≤ 2000010)
    (h1 : Fl.IsFloat m1) (h2 : Fl.IsFloat m2) (ha : Fl.IsFloat a)
    (hback : Normal (Fl.cast Fl.r32 (Fl.div Fl.r64 m f)) → Normal m) :
    Comp (k + 1) (Fl.cast Fl.r32 (Fl.div Fl.r64 m f)) m1 m2 a (Fl.mul Fl.r64 b f) := by
  refine ⟨fun hn => by rw [h.1 hn]; rfl, ?_, ?_⟩
  · intro hn
    have := h.2.1 hn
    cases b with
    | fin q => simp [Fl.isFinite] at this
    | nan => rfl
    | inf n =>
      cases f with
      | nan => rfl
      | inf n' => rfl
      | fin q => simp only [Fl.mul]; split <;> rfl
  · intro g' g1 g2 x e1 e2 e3 l1 l2 l3 e
    obtain ⟨g, em, lg⟩ := hback ⟨g', e1, l1⟩
    rw [em] at e1
    obtain ⟨q, t, rfl, hq, hgq, ht⟩ := div_normal lg e1 l1
    obtain ⟨u, eu, hu⟩ := h.2.2 g g1 g2 x em e2 e3 lg l2 l3 e
    have hg0 : 0 < g := lt_of_lt_of_le (Fl.zp_pos _) lg
    have hg'0 : 0 < g' := lt_of_lt_of_le (Fl.zp_pos _) l1
    have hg10 : 0 < g1 := lt_of_lt_of_le (Fl.zp_pos _) l2
    have hg20 : 0 < g2 := lt_of_lt_of_le (Fl.zp_pos _) l3
    have u1 : g1 ≤ 2 ^ (128 : ℤ) := le_trans (le_abs_self _) (h1 g1 e2).2.le
    have u2 : g2 ≤ 2 ^ (128 : ℤ) := le_trans (le_abs_self _) (h2 g2 e3).2.le
    have ug' : g' ≤ 2 ^ (128 : ℤ) := le_trans (le_abs_self _) (Fl.isFloat_cast _ g' e1).2.le
    have lG : (2 : ℚ) ^ (-400 : ℤ) ≤ g' * (g1 * g2) :=
      le_two_mul l1 (le_two_mul l2 l3 (k := -252) (by norm_num)) (by norm_num)
    have uG : g' * (g1 * g2) ≤ 2 ^ (400 : ℤ) :=
      two_mul_le ug' (two_mul_le u1 u2 hg20.le (k := 256) (by norm_num)) (by positivity) (by norm_num)
    have hd := drift_half hk
    have hw : |u| * (g * (g1 * g2)) ≤ |x| * (3 / 2) ∧ |x| * (1 / 2) ≤ |u| * (g * (g1 * g2)) := by
      have e0 : |u * (g * (g1 * g2))| = |u| * (g * (g1 * g2)) := by
        rw [abs_mul, abs_of_pos (by positivity : 0 < g * (g1 * g2))]
      have t1 := abs_add_le (u * (g * (g1 * g2)) - x) x
      have t2 := abs_sub_abs_le_abs_sub x (u * (g * (g1 * g2)))
      rw [sub_add_cancel, e0] at t1
      rw [abs_sub_comm, e0] at t2
      have h5 := mul_le_mul_of_nonneg_left hd (abs_nonneg x)
      constructor <;> linarith
    have ht' := abs_le.mp ht
    have ew : u * q * (g' * (g1 * g2)) = u * (g * (g1 * g2)) * t := by
      rw [show u * q * (g' * (g1 * g2)) = u * (g' * q) * (g1 * g2) by ring, hgq]; ring
    have ew' : |u * q| * (g' * (g1 * g2)) = |u| * (g * (g1 * g2)) * t := by
      rw [abs_mul, abs_of_pos hq,
        show |u| * q * (g' * (g1 * g2)) = |u| * (g' * q) * (g1 * g2) by ring, hgq]; ring
    have hx := ha x e
    have hU : |u| * (g * (g1 * g2)) * t ≤ |x| * 2 := by nlinarith [hw.1, abs_nonneg x]
    have hL : |x| * (1 / 4) ≤ |u| * (g * (g1 * g2)) * t := by nlinarith [hw.2, abs_nonneg x]
    obtain ⟨r1, r2⟩ := range_of_mul lG uG (w := u * q) (by
      rcases float_range hx with h0 | h0
      · left
        have h6 := hw.1
        rw [h0, abs_zero, zero_mul] at h6
        have h7 : |u| = 0 := by
          by_contra hn
          have : 0 < |u| := lt_of_le_of_ne (abs_nonneg _) (Ne.symm hn)
          have : 0 < |u| * (g * (g1 * g2)) := by positivity
          linarith
        rw [abs_eq_zero.mp h7, zero_mul]
      · right
        rw [ew']
        refine le_trans ?_ hL
        refine le_two_mul h0 (j := -2) (by norm_num) (by norm_num))
      (by
        rw [ew']
        refine le_trans hU ?_
        exact two_mul_le hx.2.le (j := 1) (by norm_num) (by norm_num) (by norm_num))
    obtain ⟨t3, e3', ht3⟩ := r64_factor r1 r2
    refine ⟨u * q * t3, ?_, ?_⟩
    · rw [eu]
      exact e3'
    · have e4 : u * q * t3 * (g' * (g1 * g2)) = u * (g * (g1 * g2)) * (t * t3) := by
        rw [show u * q * t3 * (g' * (g1 * g2)) = u * q * (g' * (g1 * g2)) * t3 by ring, ew]; ring
      rw [e4]
      exact drift_step hu (near_mul ht ht3 (by norm_num [κ]))

/-- If the divisor is at least 1, then a normal result comes from a normal factor. -/
theorem normal_back {m f : Fl} (hm : Fl.IsFloat m) (hf : Fl.lt f (.fin 1) = false)
    (h : Normal (Fl.cast Fl.r32 (Fl.div Fl.r64 m f))) : Normal m := by
  obtain ⟨g', e, hg'⟩ := h
  obtain ⟨s, t, es, eg, _, hs, _⟩ := cast_result e hg'
  have hs0 : 0 < s := lt_of_lt_of_le (Fl.zp_pos _) hs
  cases m with
  | nan => simp [Fl.div] at es
  | inf n => cases f <;> simp [Fl.div] at es
  | fin g =>
    cases f with
    | nan => simp [Fl.div] at es
    | inf n =>
      simp only [Fl.div] at es
      have := Fl.fin.inj es
      linarith
    | fin q =>
      have hq : 1 ≤ q := by simpa [Fl.lt] using hf
      have hq0 : q ≠ 0 := by linarith
      simp only [Fl.div, if_neg hq0] at es
      have ers : s = Fl.rnd Fl.binary64 (g / q) := by
        unfold Fl.r64 Fl.round at es
        split at es
        · exact (Fl.fin.inj es).symm
        · simp at es
      have erg : g' = Fl.rnd Fl.binary32 s := by
        simp only [Fl.div, if_neg hq0] at e
        rw [es] at e
        simp only [Fl.cast, Fl.r32, Fl.round] at e
        split at e
        · exact (Fl.fin.inj e).symm
        · simp at e
      have hg0 : 0 < g := by
        obtain ⟨_, _, _, hpos⟩ := r64_result es
          (le_trans (zpow_le_zpow_right₀ (by norm_num) (by norm_num)) hs)
        by_contra hn
        have : g / q ≤ 0 := div_nonpos_of_nonpos_of_nonneg (not_lt.mp hn) (by linarith)
        linarith
      have hr := (hm g rfl).1
      have hle : g / q ≤ g := div_le_self hg0.le hq
      have h1 := Fl.rnd_mono (f := Fl.binary64) (by decide) hle
      have hr64 : Fl.Repr Fl.binary64 g := by
        obtain ⟨mm, kk, c1, c2, c3⟩ := hr
        refine ⟨mm, kk, le_trans (by decide) c1, le_trans c2 (by decide), c3⟩
      rw [Fl.rnd_of_repr (by decide) hr64, ← ers] at h1
      have h2 := Fl.rnd_mono (f := Fl.binary32) (by decide) h1
      rw [Fl.rnd_of_repr (by decide) hr, ← erg] at h2
      exact ⟨g, rfl, le_trans hg' h2⟩

/-- The normalisation of one component. -/
theorem Comp.start {s r1 r2 a : Fl} (ha : Fl.IsFloat a) :
    Comp 3 (Fl.cast Fl.r32 s) (Fl.cast Fl.r32 r1) (Fl.cast Fl.r32 r2) a
      (Fl.mul Fl.r64 (if Fl.eq s (.fin 0) then a else Fl.div Fl.r64 a s) (antFactor Fl.r64 r1 r2)) := by
  refine ⟨?_, ?_, ?_⟩
  · rintro rfl
    have : (if Fl.eq s (.fin 0) then Fl.nan else Fl.div Fl.r64 .nan s) = .nan := by
      split
      · rfl
      · cases s <;> rfl
    rw [this]; rfl
  · intro hn
    have hc : (if Fl.eq s (.fin 0) then a else Fl.div Fl.r64 a s).isFinite = false := by
      split
      · exact hn
      · cases a with
        | fin q => simp [Fl.isFinite] at hn
        | nan => cases s <;> rfl
        | inf n => cases s <;> rfl
    generalize (if Fl.eq s (.fin 0) then a else Fl.div Fl.r64 a s) = b at hc
    generalize antFactor Fl.r64 r1 r2 = f
    cases b with
    | fin q => simp [Fl.isFinite] at hc
    | nan => rfl
    | inf n =>
      cases f with
      | nan => rfl
      | inf n' => rfl
      | fin q => simp only [Fl.mul]; split <;> rfl
  · intro g g1 g2 x e1 e2 e3 l1 l2 l3 e
    obtain ⟨s', τ, rfl, eg, hτ, ls, us⟩ := cast_result e1 l1
    obtain ⟨p1, τ1, rfl, eg1, hτ1, lp1, up1⟩ := cast_result e2 l2
    obtain ⟨p2, τ2, rfl, eg2, hτ2, lp2, up2⟩ := cast_result e3 l3
    have hs0 : 0 < s' := lt_of_lt_of_le (Fl.zp_pos _) ls
    have hp10 : 0 < p1 := lt_of_lt_of_le (Fl.zp_pos _) lp1
    have hp20 : 0 < p2 := lt_of_lt_of_le (Fl.zp_pos _) lp2
    have hx := ha x e
    have zz : ∀ {i j : ℤ}, i ≤ j → (2 : ℚ) ^ i ≤ 2 ^ j := fun h => zpow_le_zpow_right₀ (by norm_num) h
    -- the channel
    have hne : Fl.eq (.fin s') (.fin 0) = false := by simp [Fl.eq, hs0.ne']
    rw [hne, e]
    simp only [Bool.false_eq_true, if_false]
    have ex : |x / s'| * s' = |x| := by
      rw [abs_div, abs_of_pos hs0]; field_simp
    have hxr : x = 0 ∨ (2 : ℚ) ^ (-200 : ℤ) ≤ |x| := by
      rcases float_range hx with h0 | h0
      · exact Or.inl h0
      · exact Or.inr (le_trans (zz (by norm_num)) h0)
    obtain ⟨a1, a2⟩ := range_of_mul (w := x / s') (G := s') (le_trans (zz (by norm_num)) ls)
      (le_trans us (zz (by norm_num))) (by
        rw [ex]
        rcases hxr with h0 | h0
        · exact Or.inl (by rw [h0, zero_div])
        · exact Or.inr h0) (by rw [ex]; exact le_trans hx.2.le (zz (by norm_num)))
    obtain ⟨t1, et1, ht1⟩ := r64_factor a1 a2
    have ediv : Fl.div Fl.r64 (.fin x) (.fin s') = .fin (x / s' * t1) := by
      simp only [Fl.div, if_neg hs0.ne', et1]
    rw [ediv]
    -- the product of the antennas
    have lP : (2 : ℚ) ^ (-254 : ℤ) ≤ p1 * p2 := le_two_mul lp1 lp2 (by norm_num)
    have uP : p1 * p2 ≤ 2 ^ (258 : ℤ) := two_mul_le up1 up2 hp20.le (by norm_num)
    have hP0 : 0 < p1 * p2 := mul_pos hp10 hp20
    obtain ⟨t2, et2, ht2⟩ := r64_factor (x := p1 * p2)
      (Or.inr (by rw [abs_of_pos hP0]; exact le_trans (zz (by norm_num)) lP))
      (by rw [abs_of_pos hP0]; exact le_trans uP (zz (by norm_num)))
    have emul : Fl.mul Fl.r64 (.fin p1) (.fin p2) = .fin (p1 * p2 * t2) := et2
    obtain ⟨ht20, hti⟩ := near_inv (c := 1 / 9000000000000000) ht2 (by norm_num) (by norm_num)
    have hQ0 : 0 < p1 * p2 * t2 := mul_pos hP0 ht20
    have ht2' := abs_le.mp ht2
    have lQ : (2 : ℚ) ^ (-255 : ℤ) ≤ p1 * p2 * t2 :=
      le_two_mul lP (j := -1) (by norm_num; linarith) (by norm_num)
    have uQ : p1 * p2 * t2 ≤ 2 ^ (259 : ℤ) :=
      two_mul_le uP (j := 1) (by norm_num; linarith) ht20.le (by norm_num)
    have hinv : |1 / (p1 * p2 * t2)| * (p1 * p2 * t2) = 1 := by
      rw [abs_of_pos (by positivity)]; field_simp
    obtain ⟨b1, b2⟩ := range_of_mul (w := 1 / (p1 * p2 * t2)) (G := p1 * p2 * t2)
      (le_trans (zz (by norm_num)) lQ) (le_trans uQ (zz (by norm_num)))
      (Or.inr (by rw [hinv]; norm_num)) (by rw [hinv]; norm_num)
    obtain ⟨t3, et3, ht3⟩ := r64_factor b1 b2
    have hant : antFactor Fl.r64 (.fin p1) (.fin p2) = .fin (1 / (p1 * p2 * t2) * t3) := by
      unfold antFactor
      rw [emul]
      have : Fl.eq (.fin (p1 * p2 * t2)) (.fin 0) = false := by simp [Fl.eq, hQ0.ne']
      rw [this]
      simp only [Bool.false_eq_true, if_false, Fl.div, if_neg hQ0.ne', et3]
    rw [hant]
    -- the scaled component
    set w := x / s' * t1 * (1 / (p1 * p2 * t2) * t3) with hw
    have hT : |t1 * (t2⁻¹ * t3) - 1| ≤ 1 / 2000000000000000 :=
      near_mul ht1 (near_mul hti ht3 (c := 1 / 4000000000000000) (by norm_num)) (by norm_num)
    have ewG : w * (s' * (p1 * p2)) = x * (t1 * (t2⁻¹ * t3)) := by
      rw [hw]; field_simp
    have hT' := abs_le.mp hT
    have hG0 : 0 < s' * (p1 * p2) := by positivity
    have ewG' : |w| * (s' * (p1 * p2)) = |x| * (t1 * (t2⁻¹ * t3)) := by
      rw [← abs_of_pos hG0, ← abs_mul, ewG, abs_mul, abs_of_pos (by linarith : 0 < t1 * (t2⁻¹ * t3))]
    obtain ⟨c1, c2⟩ := range_of_mul (w := w) (G := s' * (p1 * p2))
      (le_two_mul ls lP (by norm_num)) (two_mul_le us uP hP0.le (by norm_num)) (by
        rw [ewG']
        rcases float_range hx with h0 | h0
        · left
          rw [hw, h0]
          ring
        · exact Or.inr (le_two_mul h0 (j := -1) (by norm_num; linarith) (by norm_num))) (by
        rw [ewG']
        exact two_mul_le hx.2.le (j := 1) (by norm_num; linarith) (by linarith) (by norm_num))
    obtain ⟨t4, et4, ht4⟩ := r64_factor c1 c2
    refine ⟨w * t4, et4, ?_⟩
    have efin : w * t4 * (g * (g1 * g2)) = x * (t1 * (t2⁻¹ * t3) * t4 * τ) * τ1 * τ2 := by
      rw [eg, eg1, eg2, show w * t4 * (s' * τ * (p1 * τ1 * (p2 * τ2))) =
        w * (s' * (p1 * p2)) * (t4 * (τ * (τ1 * τ2))) by ring, ewG]
      ring
    rw [efin]
    have d0 : |x - x| ≤ |x| * drift 0 := by simp [drift]
    have d1 := drift_step d0 (t := t1 * (t2⁻¹ * t3) * t4 * τ)
      (near_mul (near_mul hT ht4 (c := 1 / 1000000000000000) (by norm_num)) hτ (by norm_num [κ]))
    have d2 := drift_step d1 (le_trans hτ1 (by norm_num [κ]))
    exact drift_step d2 (le_trans hτ2 (by norm_num [κ]))

end Dysco.AF
