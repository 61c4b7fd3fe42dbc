import Verif.Locality
import Verif.WeightStable

/-!
# C135: the unit of the data does not matter

Multiplying all values of a row by a power of two leaves the symbols of the row as they are, with row normalisation; the
stored factor is multiplied by that power. The same holds for the weights of a block and the stored maximum. The values
that are read back are multiplied too. What is needed: no overflow and no subnormal floats.
-/

namespace Dysco.Fl

theorem log_mul_pow {x : ℚ} (hx : 0 < x) (j : ℤ) : Int.log 2 (x * 2 ^ j) = Int.log 2 x + j := by
  have hl := Int.zpow_log_le_self (b := 2) (r := x) (by norm_num) hx
  have hu := Int.lt_zpow_succ_log_self (b := 2) (by norm_num) x
  push_cast at hl hu
  have hp := zp_pos j
  have hxp : 0 < x * 2 ^ j := mul_pos hx hp
  have hl' := Int.zpow_log_le_self (b := 2) (r := x * 2 ^ j) (by norm_num) hxp
  have hu' := Int.lt_zpow_succ_log_self (b := 2) (by norm_num) (x * 2 ^ j)
  push_cast at hl' hu'
  have a : (2 : ℚ) ^ (Int.log 2 (x * 2 ^ j)) < 2 ^ (Int.log 2 x + 1 + j) := by
    rw [zpow_add₀ (by norm_num) _ j]
    exact lt_of_le_of_lt hl' (mul_lt_mul_of_pos_right hu hp)
  have b : (2 : ℚ) ^ (Int.log 2 x + j) < 2 ^ (Int.log 2 (x * 2 ^ j) + 1) := by
    rw [zpow_add₀ (by norm_num) _ j]
    exact lt_of_le_of_lt (mul_le_mul_of_nonneg_right hl hp.le) hu'
  have a' := (zpow_lt_zpow_iff_right₀ (by norm_num : (1 : ℚ) < 2)).1 a
  have b' := (zpow_lt_zpow_iff_right₀ (by norm_num : (1 : ℚ) < 2)).1 b
  omega

/-- Rounding commutes with a power of two in the normal range. -/
theorem rnd_mul_pow {f : Fmt} {x : ℚ} {j : ℤ} (h : (2 : ℚ) ^ (f.emin + f.p - 1) ≤ |x|)
    (h' : (2 : ℚ) ^ (f.emin + f.p - 1) ≤ |x * 2 ^ j|) : rnd f (x * 2 ^ j) = rnd f x * 2 ^ j := by
  have hx : 0 < |x| := lt_of_lt_of_le (zp_pos _) h
  have hx' : |x * 2 ^ j| = |x| * 2 ^ j := by rw [abs_mul, abs_of_pos (zp_pos j)]
  have hlog : ∀ {y : ℚ}, (2 : ℚ) ^ (f.emin + f.p - 1) ≤ y → f.emin + f.p - 1 ≤ Int.log 2 y := by
    intro y hy
    have := Int.log_mono_right (b := 2) (zp_pos (f.emin + f.p - 1)) hy
    rwa [log_of_pow] at this
  have e : ulpExp f (x * 2 ^ j) = ulpExp f x + j := by
    have h1 := hlog h
    have h2 := hlog h'
    unfold ulpExp
    rw [hx', log_mul_pow hx] at *
    rw [max_eq_left (by omega), max_eq_left (by omega)]
    omega
  unfold rnd
  rw [e, zpow_add₀ (by norm_num), mul_div_mul_right _ _ (zp_pos j).ne', mul_assoc]

theorem r64_mul_pow {x : ℚ} {j : ℤ} (h1 : (2 : ℚ) ^ (-1022 : ℤ) ≤ |x|) (h2 : |x| ≤ 2 ^ (1000 : ℤ))
    (h1' : (2 : ℚ) ^ (-1022 : ℤ) ≤ |x * 2 ^ j|) (h2' : |x * 2 ^ j| ≤ 2 ^ (1000 : ℤ)) :
    ∃ P, r64 x = .fin P ∧ r64 (x * 2 ^ j) = .fin (P * 2 ^ j) ∧ |P - x| ≤ |x| * 2 ^ (-53 : ℤ) := by
  obtain ⟨a, a'⟩ := r64_normal h1 h2
  obtain ⟨b, -⟩ := r64_normal h1' h2'
  refine ⟨_, a, ?_, a'⟩
  rw [b, rnd_mul_pow (f := binary64) h1 h1']

theorem r32_mul_pow {x : ℚ} {j : ℤ} (h1 : (2 : ℚ) ^ (-126 : ℤ) ≤ |x|) (h2 : |x| ≤ 2 ^ (127 : ℤ))
    (h1' : (2 : ℚ) ^ (-126 : ℤ) ≤ |x * 2 ^ j|) (h2' : |x * 2 ^ j| ≤ 2 ^ (127 : ℤ)) :
    ∃ P, r32 x = .fin P ∧ r32 (x * 2 ^ j) = .fin (P * 2 ^ j) := by
  have hb : ∀ {y : ℚ}, |y| ≤ 2 ^ (127 : ℤ) → r32 y = .fin (rnd binary32 y) := by
    intro y hy
    apply r32_fin
    have hr : Repr binary32 ((2 : ℚ) ^ (127 : ℤ)) := by
      have := repr_int_mul (f := binary32) 1 127 (by decide) (by norm_num [binary32])
      simpa using this
    have h3 := rnd_mono (f := binary32) (by decide) (abs_le.1 hy).2
    have h4 := rnd_mono (f := binary32) (by decide) (abs_le.1 hy).1
    rw [rnd_neg] at h4
    rw [rnd_of_repr (by decide) hr] at h3 h4
    refine lt_of_le_of_lt (abs_le.2 ⟨h4, h3⟩) ?_
    exact zpow_lt_zpow_right₀ (by norm_num) (by norm_num)
  refine ⟨_, hb h2, ?_⟩
  rw [hb h2', rnd_mul_pow (f := binary32) h1 h1']

/-- A value times a power of two. Not in the code. -/
def scale2 (j : ℤ) : Fl → Fl
  | .fin a => .fin (a * 2 ^ j)
  | x => x

end Dysco.Fl

namespace Dysco
open TimeBlock Stochastic

/-- Both components times a power of two. Not in the code. -/
def Cx.scale2 (j : ℤ) (v : Cx) : Cx := ⟨v.re.scale2 j, v.im.scale2 j⟩

theorem counted_scale2 {v : Cx} {m : ℚ} (j : ℤ) (h : Counted v m) : Counted (v.scale2 j) (m * 2 ^ j) := by
  obtain ⟨a, h1, h2⟩ := h
  have hp := Fl.zp_pos j
  have ha : ∀ x : ℚ, |x * 2 ^ j| = |x| * 2 ^ j := fun x => by rw [abs_mul, abs_of_pos hp]
  refine ⟨a * 2 ^ j, by simp [Cx.scale2, Fl.scale2, h1], ?_⟩
  rcases h2 with ⟨b, h3, h4⟩ | ⟨h3, h4⟩
  · left
    refine ⟨b * 2 ^ j, by simp [Cx.scale2, Fl.scale2, h3], ?_⟩
    rw [h4, ha, ha, max_mul_of_nonneg _ _ hp.le]
  · right
    refine ⟨by simp [Cx.scale2, Fl.scale2, h3], ?_⟩
    rw [h4, ha]

theorem scale2_scale2 (j : ℤ) (v : Cx) : (v.scale2 j).scale2 (-j) = v := by
  have h : ∀ x : Fl, (x.scale2 j).scale2 (-j) = x := by
    intro x
    cases x with
    | fin q =>
      simp only [Fl.scale2]
      rw [mul_assoc, ← zpow_add₀ (by norm_num)]
      simp
    | inf n => rfl
    | nan => rfl
  cases v
  simp [Cx.scale2, h]

theorem isMax_scale2 {n : Nat} {v : Nat → Cx} {M : ℚ} (j : ℤ) (h : IsMax n v M) :
    IsMax n (fun i => (v i).scale2 j) (M * 2 ^ j) := by
  have hp := Fl.zp_pos j
  obtain ⟨h0, h1, h2⟩ := h
  refine ⟨mul_nonneg h0 hp.le, fun i m hi hc => ?_, ?_⟩
  · have := counted_scale2 (-j) hc
    rw [scale2_scale2] at this
    have h3 := h1 i _ hi this
    have e : m = m * 2 ^ (-j) * 2 ^ j := by
      rw [mul_assoc, ← zpow_add₀ (by norm_num)]
      simp
    rw [e]
    exact mul_le_mul_of_nonneg_right h3 hp.le
  · rcases h2 with h2 | ⟨i, hi, hc⟩
    · exact Or.inl (by rw [h2, zero_mul])
    · exact Or.inr ⟨i, hi, counted_scale2 j hc⟩

/-- A float divided by a float is far inside the range of doubles. -/
theorem ratio_range {a b : ℚ} (ha : Fl.Repr Fl.binary32 a) (ha0 : 0 < a) (ha2 : a < 2 ^ (128 : ℤ))
    (hb : Fl.Repr Fl.binary32 b) (hb0 : 0 < b) (hb2 : b < 2 ^ (128 : ℤ)) :
    (2 : ℚ) ^ (-277 : ℤ) ≤ a / b ∧ a / b ≤ 2 ^ (277 : ℤ) := by
  have hage := Fl.repr32_ge ha ha0
  have hbge := Fl.repr32_ge hb hb0
  have z : ∀ {i j : ℤ}, i ≤ j → (2 : ℚ) ^ i ≤ 2 ^ j := fun h => zpow_le_zpow_right₀ (by norm_num) h
  constructor
  · rw [le_div_iff₀ hb0]
    refine le_trans (mul_le_mul_of_nonneg_left hb2.le (Fl.zp_pos _).le) ?_
    rw [← zpow_add₀ (by norm_num)]
    exact le_trans (z (by norm_num)) hage
  · rw [div_le_iff₀ hb0]
    refine le_trans ha2.le (le_trans ?_ (mul_le_mul_of_nonneg_left hbge (Fl.zp_pos _).le))
    rw [← zpow_add₀ (by norm_num)]
    exact z (by norm_num)

theorem r64_ratio {a b : ℚ} {j : ℤ} (ha : Fl.Repr Fl.binary32 a) (ha0 : 0 < a) (ha2 : a < 2 ^ (128 : ℤ))
    (ha' : Fl.Repr Fl.binary32 (a * 2 ^ j)) (ha2' : a * 2 ^ j < 2 ^ (128 : ℤ))
    (hb : Fl.Repr Fl.binary32 b) (hb0 : 0 < b) (hb2 : b < 2 ^ (128 : ℤ)) :
    (∃ P, 0 < P ∧ Fl.div Fl.r64 (.fin a) (.fin b) = .fin P ∧ Fl.div Fl.r64 (.fin (a * 2 ^ j)) (.fin b) = .fin (P * 2 ^ j) ∧
      |P - a / b| ≤ a / b * 2 ^ (-53 : ℤ)) ∧
    ∃ P, 0 < P ∧ Fl.div Fl.r64 (.fin b) (.fin a) = .fin P ∧ Fl.div Fl.r64 (.fin b) (.fin (a * 2 ^ j)) = .fin (P * 2 ^ (-j)) := by
  have hp := Fl.zp_pos j
  have ha0' : 0 < a * 2 ^ j := mul_pos ha0 hp
  have z : ∀ {i j : ℤ}, i ≤ j → (2 : ℚ) ^ i ≤ 2 ^ j := fun h => zpow_le_zpow_right₀ (by norm_num) h
  have key : ∀ {x x' : ℚ} {k : ℤ}, (2 : ℚ) ^ (-277 : ℤ) ≤ x ∧ x ≤ 2 ^ (277 : ℤ) → (2 : ℚ) ^ (-277 : ℤ) ≤ x' ∧ x' ≤ 2 ^ (277 : ℤ) →
      x' = x * 2 ^ k → ∃ P, 0 < P ∧ Fl.r64 x = .fin P ∧ Fl.r64 x' = .fin (P * 2 ^ k) ∧ |P - x| ≤ x * 2 ^ (-53 : ℤ) := by
    intro x x' k h h' hk
    have hx : 0 < x := lt_of_lt_of_le (Fl.zp_pos _) h.1
    have hx' : 0 < x' := lt_of_lt_of_le (Fl.zp_pos _) h'.1
    obtain ⟨P, e1, e2, e3⟩ := Fl.r64_mul_pow (x := x) (j := k) (by rw [abs_of_pos hx]; exact le_trans (z (by norm_num)) h.1)
      (by rw [abs_of_pos hx]; exact le_trans h.2 (z (by norm_num)))
      (by rw [← hk, abs_of_pos hx']; exact le_trans (z (by norm_num)) h'.1)
      (by rw [← hk, abs_of_pos hx']; exact le_trans h'.2 (z (by norm_num)))
    rw [abs_of_pos hx] at e3
    refine ⟨P, ?_, e1, by rw [hk]; exact e2, e3⟩
    have h53 : (2 : ℚ) ^ (-53 : ℤ) ≤ 1 / 2 := by norm_num
    have h4 := mul_le_mul_of_nonneg_left h53 hx.le
    have h5 := (abs_le.1 e3).1
    generalize x * 2 ^ (-53 : ℤ) = t at h4 h5
    linarith
  constructor
  · obtain ⟨P, h0, h1, h2, h3⟩ := key (k := j) (ratio_range ha ha0 ha2 hb hb0 hb2) (ratio_range ha' ha0' ha2' hb hb0 hb2)
      (by rw [div_mul_eq_mul_div])
    refine ⟨P, h0, ?_, ?_, h3⟩
    · simp only [Fl.div, if_neg hb0.ne', h1]
    · simp only [Fl.div, if_neg hb0.ne', h2]
  · obtain ⟨P, h0, h1, h2, -⟩ := key (k := -j) (ratio_range hb hb0 hb2 ha ha0 ha2) (ratio_range hb hb0 hb2 ha' ha0' ha2')
      (by rw [zpow_neg]; field_simp)
    refine ⟨P, h0, ?_, ?_⟩
    · simp only [Fl.div, if_neg ha0.ne', h1]
    · simp only [Fl.div, if_neg ha0'.ne', h2]

/-- The value that is given to the quantiser is the same. -/
theorem component_scale2 (c : Fl) {j : ℤ} {F : ℚ} (hF : 0 < F) :
    Fl.mul Fl.r64 (c.scale2 j) (.fin (F * 2 ^ (-j))) = Fl.mul Fl.r64 c (.fin F) := by
  have hp := Fl.zp_pos (-j)
  have hFp : 0 < F * 2 ^ (-j) := mul_pos hF hp
  cases c with
  | fin a =>
    simp only [Fl.scale2, Fl.mul]
    congr 1
    rw [zpow_neg]
    field_simp
  | inf n =>
    simp only [Fl.scale2, Fl.mul]
    rw [if_neg hF.ne', if_neg hFp.ne', decide_eq_false (not_lt.2 hF.le), decide_eq_false (not_lt.2 hFp.le)]
  | nan => rfl

/-- Rounding to float does not cross a power of two. -/
theorem r32_pow_le {x y : ℚ} {k : ℤ} (hk : -149 ≤ k) (h : Fl.r32 x = .fin y) :
    ((2 : ℚ) ^ k ≤ |x| → (2 : ℚ) ^ k ≤ |y|) ∧ (|x| ≤ 2 ^ k → |y| ≤ 2 ^ k) := by
  have hr : Fl.Repr Fl.binary32 ((2 : ℚ) ^ k) := by
    have := Fl.repr_int_mul (f := Fl.binary32) 1 k hk (by norm_num [Fl.binary32])
    simpa using this
  have hy : y = Fl.rnd Fl.binary32 x := by
    unfold Fl.r32 Fl.round at h
    split at h
    · simpa using h.symm
    · cases h
  rw [hy, Fl.abs_rnd]
  constructor
  · intro hx
    have := Fl.rnd_mono (f := Fl.binary32) (by decide) hx
    rwa [Fl.rnd_of_repr (by decide) hr] at this
  · intro hx
    have := Fl.rnd_mono (f := Fl.binary32) (by decide) hx
    rwa [Fl.rnd_of_repr (by decide) hr] at this

theorem r64_pow_le {x y : ℚ} {k : ℤ} (hk : -1074 ≤ k) (h : Fl.r64 x = .fin y) (hx : (2 : ℚ) ^ k ≤ |x|) : (2 : ℚ) ^ k ≤ |y| := by
  have hr : Fl.Repr Fl.binary64 ((2 : ℚ) ^ k) := by
    have := Fl.repr_int_mul (f := Fl.binary64) 1 k hk (by norm_num [Fl.binary64])
    simpa using this
  have hy : y = Fl.rnd Fl.binary64 x := by
    unfold Fl.r64 Fl.round at h
    split at h
    · simpa using h.symm
    · cases h
  rw [hy, Fl.abs_rnd]
  have := Fl.rnd_mono (f := Fl.binary64) (by decide) hx
  rwa [Fl.rnd_of_repr (by decide) hr] at this

/-- A value in the range of normal floats, before and after scaling. -/
theorem r32_scaled {P y : ℚ} {j : ℤ} (h : Fl.r32 P = .fin y) (h1 : (2 : ℚ) ^ (-126 : ℤ) < |y|) (h2 : |y| < 2 ^ (127 : ℤ))
    (h1' : (2 : ℚ) ^ (-126 : ℤ) < |y * 2 ^ j|) (h2' : |y * 2 ^ j| < 2 ^ (127 : ℤ)) :
    Fl.r32 (P * 2 ^ j) = .fin (y * 2 ^ j) := by
  have hp := Fl.zp_pos j
  have z : ∀ {i j : ℤ}, i ≤ j → (2 : ℚ) ^ i ≤ 2 ^ j := fun h => zpow_le_zpow_right₀ (by norm_num) h
  have low : (2 : ℚ) ^ (-126 : ℤ) ≤ |P| := by
    by_contra hc
    exact absurd ((r32_pow_le (by norm_num) h).2 (not_le.1 hc).le) (not_le.2 h1)
  have high : |P| ≤ 2 ^ (127 : ℤ) := by
    by_contra hc
    exact absurd ((r32_pow_le (by norm_num) h).1 (not_le.1 hc).le) (not_le.2 h2)
  have es : ∀ a : ℚ, |a * 2 ^ j| = |a| * 2 ^ j := fun a => by rw [abs_mul, abs_of_pos hp]
  have ed : ∀ k : ℤ, (2 : ℚ) ^ k = 2 ^ (k - j) * 2 ^ j := fun k => by
    rw [← zpow_add₀ (by norm_num)]
    simp
  have up : ∀ {a : ℚ} {k : ℤ}, |a| ≤ 2 ^ (k - j) → |a * 2 ^ j| ≤ 2 ^ k := fun {a k} ha => by
    rw [es, ed k]
    exact mul_le_mul_of_nonneg_right ha hp.le
  have dn : ∀ {a : ℚ} {k : ℤ}, (2 : ℚ) ^ (k - j) ≤ |a| → (2 : ℚ) ^ k ≤ |a * 2 ^ j| := fun {a k} ha => by
    rw [es, ed k]
    exact mul_le_mul_of_nonneg_right ha hp.le
  have low' : (2 : ℚ) ^ (-126 : ℤ) ≤ |P * 2 ^ j| := by
    rcases le_or_gt 0 j with hj | hj
    · exact dn (le_trans (z (by omega)) low)
    · by_contra hc
      have h3 : ¬ (2 : ℚ) ^ (-126 - j) ≤ |P| := fun h3 => hc (dn h3)
      exact absurd (up ((r32_pow_le (by omega) h).2 (not_le.1 h3).le)) (not_le.2 h1')
  have high' : |P * 2 ^ j| ≤ 2 ^ (127 : ℤ) := by
    rcases le_or_gt j 0 with hj | hj
    · exact up (le_trans high (z (by omega)))
    · by_contra hc
      have h3 : ¬ |P| ≤ (2 : ℚ) ^ (127 - j) := fun h3 => hc (up h3)
      rcases le_or_gt (-149) (127 - j) with hj2 | hj2
      · exact absurd (dn ((r32_pow_le hj2 h).1 (not_le.1 h3).le)) (not_le.2 h2')
      · exact absurd (dn (le_trans (z (by omega)) h1.le)) (not_le.2 h2')
  obtain ⟨Q, e1, e2⟩ := Fl.r32_mul_pow low high low' high'
  rw [h] at e1
  obtain rfl : y = Q := by simpa using e1
  exact e2

/-- What is read for a stored level `c` and a factor `f`. -/
theorem read_scaled {c f y : ℚ} {j : ℤ} (hc : c = 0 ∨ (2 : ℚ) ^ (-149 : ℤ) ≤ |c|) (hc2 : |c| ≤ 2 ^ (128 : ℤ))
    (hf : (2 : ℚ) ^ (-300 : ℤ) ≤ f) (hf2 : f ≤ 2 ^ (300 : ℤ)) (hf' : (2 : ℚ) ^ (-300 : ℤ) ≤ f * 2 ^ j)
    (hf2' : f * 2 ^ j ≤ 2 ^ (300 : ℤ)) (h : Fl.cast Fl.r32 (Fl.mul Fl.r64 (.fin c) (.fin f)) = .fin y)
    (h1 : (2 : ℚ) ^ (-126 : ℤ) < |y|) (h2 : |y| < 2 ^ (127 : ℤ))
    (h1' : (2 : ℚ) ^ (-126 : ℤ) < |y * 2 ^ j|) (h2' : |y * 2 ^ j| < 2 ^ (127 : ℤ)) :
    Fl.cast Fl.r32 (Fl.mul Fl.r64 (.fin c) (.fin (f * 2 ^ j))) = .fin (y * 2 ^ j) := by
  have z : ∀ {i j : ℤ}, i ≤ j → (2 : ℚ) ^ i ≤ 2 ^ j := fun h => zpow_le_zpow_right₀ (by norm_num) h
  rcases hc with rfl | hc
  · exfalso
    simp only [Fl.mul, zero_mul, Fl.r64_zero, Fl.cast, Fl.r32_zero] at h
    obtain rfl : (0 : ℚ) = y := by simpa using h
    rw [abs_zero] at h1
    exact absurd h1 (not_lt.2 (Fl.zp_pos _).le)
  · have lo : ∀ {g : ℚ}, (2 : ℚ) ^ (-300 : ℤ) ≤ g → (2 : ℚ) ^ (-1022 : ℤ) ≤ |c * g| := by
      intro g hg
      have hg0 : 0 < g := lt_of_lt_of_le (Fl.zp_pos _) hg
      rw [abs_mul, abs_of_pos hg0]
      refine le_trans ?_ (mul_le_mul hc hg (Fl.zp_pos _).le (abs_nonneg _))
      rw [← zpow_add₀ (by norm_num)]
      exact z (by norm_num)
    have hi : ∀ {g : ℚ}, (2 : ℚ) ^ (-300 : ℤ) ≤ g → g ≤ 2 ^ (300 : ℤ) → |c * g| ≤ 2 ^ (1000 : ℤ) := by
      intro g hg hg2
      have hg0 : 0 < g := lt_of_lt_of_le (Fl.zp_pos _) hg
      rw [abs_mul, abs_of_pos hg0]
      refine le_trans (mul_le_mul hc2 hg2 hg0.le (Fl.zp_pos _).le) ?_
      rw [← zpow_add₀ (by norm_num)]
      exact z (by norm_num)
    have ea : c * (f * 2 ^ j) = c * f * 2 ^ j := by ring
    obtain ⟨P, e1, e2, -⟩ := Fl.r64_mul_pow (x := c * f) (j := j) (lo hf) (hi hf hf2) (by rw [← ea]; exact lo hf')
      (by rw [← ea]; exact hi hf' hf2')
    simp only [Fl.mul, e1, Fl.cast] at h
    simp only [Fl.mul, ea, e2, Fl.cast]
    exact r32_scaled h h1 h2 h1' h2'

end Dysco

namespace Dysco.Layout
open BytePacker TimeBlock Stochastic

variable {nR nPol nCh nAnt bits : Nat} {A A' : Nat → Nat × Nat} {D : Nat → Nat → Cx} {data data' : Block Cx}

/-- What is in a written block with row normalisation, and what is read from it. -/
theorem row_block (sq : Fl → Fl) {e : Encoder} {b l : Nat → ℚ} {L : ℚ} (hT : Table e b l L) (hb : Supported bits)
    (hq : e.quantCount = 2 ^ bits) (hR : 0 < nR) (h : Holds nR (nPol * nCh) A D data) (dith : Nat → Nat) (fuel : Nat)
    {packed : Mem 8} {unpacked out : Buf Nat} (hp : packed.len = blockSize nR (symbolCount nR nPol nCh) bits)
    (hu : unpacked.len = symbolCount nR nPol nCh) (ho : out.len = symbolCount nR nPol nCh)
    (dflt : DataRow Cx) (rows : Block Cx) :
    ∃ (d : Mem 8) (x : Block Cx) (s : Nat → Nat), writeBlock (encData .row sq e nPol nCh nAnt dith fuel data) bits nR (symbolCount nR nPol nCh) packed unpacked = .ok d ∧
      readBlock (decData .row e nPol nCh nAnt A) bits nR (symbolCount nR nPol nCh) nR dflt d out rows = .ok x ∧
      (∀ j, j < symbolCount nR nPol nCh → s j < 2 ^ bits ∧ symbolAt bits (4 * nR) d j = s j) ∧
      (∀ r, r < nR → (metaView nR d).get r = Fl.cast Fl.r32 (Fl.div Fl.r64 (maxFold (D r) (nPol * nCh)) (.fin L))) ∧
      (∀ r i, r < nR → i < nPol * nCh →
        encFn Fl.r32 e true (Fl.cast Fl.r32 (Fl.mul Fl.r64 (D r i).re
          (Row.rowFactor Fl.r64 (.fin L) (maxFold (D r) (nPol * nCh))))) (dith ((r * (nPol * nCh) + i) * 2)) =
            some (s ((r * (nPol * nCh) + i) * 2)) ∧
        encFn Fl.r32 e true (Fl.cast Fl.r32 (Fl.mul Fl.r64 (D r i).im
          (Row.rowFactor Fl.r64 (.fin L) (maxFold (D r) (nPol * nCh))))) (dith ((r * (nPol * nCh) + i) * 2 + 1)) =
            some (s ((r * (nPol * nCh) + i) * 2 + 1))) ∧
      ∀ r i, r < nR → i < nPol * nCh → (x.get r).vis.get i =
        ⟨Fl.cast Fl.r32 (Fl.mul Fl.r64 (e.level (s ((r * (nPol * nCh) + i) * 2))) ((metaView nR d).get r)),
         Fl.cast Fl.r32 (Fl.mul Fl.r64 (e.level (s ((r * (nPol * nCh) + i) * 2 + 1))) ((metaView nR d).get r))⟩ := by
  obtain ⟨m0, s0, w⟩ : ∃ m s, Writes (encData .row sq e nPol nCh nAnt dith fuel data)
      nR (symbolCount nR nPol nCh) e.quantCount m s := by
    rcases dataWrites (nAnt := nAnt) .row sq hT h hR (by simp) dith fuel with ⟨h1, -⟩ | h1
    · cases h1
    · exact h1
  have w' := w
  rw [hq] at w
  obtain ⟨blk, l1, g1, g2, g3⟩ := writeBlock_spec hb w
  obtain ⟨d, e1, l2, e2⟩ := g1 packed unpacked hp hu
  have hH : End.BlockHolds bits nR (symbolCount nR nPol nCh) m0 s0 d := End.holds_of_writes hb w hp hu e1
  have hRd : Reads (decData .row e nPol nCh nAnt A) nR (symbolCount nR nPol nCh) e.quantCount nR (nPol * nCh)
      (valueOf .row e nPol nCh nAnt A) := dataReads .row hT (by simp)
  rw [hq] at hRd
  obtain ⟨x, e3, -, g4⟩ := readBlock_spec hRd hH.metaLen hH.symLen hH.below hH.size hH.floats hH.symbols dflt out ho rows
  obtain ⟨m, s, a1, a2, a3, a4, -, -, -, a8⟩ := Row.encode_spec (RF := Fl.r32) (RD := Fl.r64) (hT.total Fl.r32 true)
    (maxLevel := e.maxQuantity) (dith := dith) h ⟨nR, fun _ => .nan⟩ (Nat.le_refl _)
    ⟨symbolCount nR nPol nCh, fun _ => 0⟩ (by rw [symbolCount_eq])
  obtain ⟨m1, s1, b1, -, -, b4, b5⟩ := w'.same ⟨nR, fun _ => .nan⟩ ⟨symbolCount nR nPol nCh, fun _ => 0⟩ rfl
    (fun _ _ => rfl) rfl
  obtain ⟨rfl, rfl⟩ : m = m1 ∧ s = s1 := by
    simp only [encData] at b1
    rw [a1] at b1
    simpa using b1
  refine ⟨d, x, s0.get, e1, e3, fun j hj => ⟨w.below j hj, ?_⟩, fun r hr => ?_, fun r i hr hi => ?_, fun r i hr hi => ?_⟩
  · obtain ⟨t, c1, -, c3⟩ := unpack_any hb hH.size ⟨symbolCount nR nPol nCh, fun _ => 0⟩ rfl
    obtain ⟨t', c1', -, c3'⟩ := hH.symbols ⟨symbolCount nR nPol nCh, fun _ => 0⟩ rfl
    rw [c1] at c1'
    obtain rfl : t = t' := by simpa using c1'
    rw [← c3 j hj, c3' j hj]
  · rw [hH.floats r hr, ← b4 r hr, a4 r hr, hT.maxQuantity]
  · have hlt : (r * (nPol * nCh) + i) * 2 + 1 < symbolCount nR nPol nCh := by
      rw [symbolCount_eq]
      have := flat_lt hr hi
      omega
    have := a8 r i hr hi
    rw [hT.maxQuantity] at this
    rw [← b5 _ (by omega), ← b5 _ hlt]
    exact this
  · rw [(g4 r hr).2 i hi, hH.floats r hr]
    rfl

/-- **C135** Data `D`, and the same data with the values of row `r` multiplied by `2 ^ j r`, written with row
normalisation and the same dither values. For every row with a largest value `M > 0`:
* the symbols of the row are the same in both blocks,
* the stored factor is multiplied by `2 ^ j r`, if it is a normal float before and after,
* then so is every value that is read back and is a normal float before and after; NaN stays NaN. -/
theorem row_scaled (sq : Fl → Fl) {e : Encoder} {b l : Nat → ℚ} {L : ℚ} (hT : Table e b l L)
    (hl : ∀ i, i < e.n → Fl.Repr Fl.binary32 (l i) ∧ |l i| < 2 ^ (128 : ℤ))
    (hb : Supported bits) (hq : e.quantCount = 2 ^ bits) (hR : 0 < nR) (j : Nat → ℤ)
    (h : Holds nR (nPol * nCh) A D data) (h' : Holds nR (nPol * nCh) A' (fun r i => (D r i).scale2 (j r)) data')
    (hF : ∀ r i, r < nR → i < nPol * nCh → FloatVis (D r i))
    (hF' : ∀ r i, r < nR → i < nPol * nCh → FloatVis ((D r i).scale2 (j r)))
    (dith : Nat → Nat) (fuel : Nat) {packed packed' : Mem 8} {unpacked unpacked' out out' : Buf Nat}
    (hp : packed.len = blockSize nR (symbolCount nR nPol nCh) bits) (hp' : packed'.len = blockSize nR (symbolCount nR nPol nCh) bits)
    (hu : unpacked.len = symbolCount nR nPol nCh) (hu' : unpacked'.len = symbolCount nR nPol nCh)
    (ho : out.len = symbolCount nR nPol nCh) (ho' : out'.len = symbolCount nR nPol nCh)
    (dflt dflt' : DataRow Cx) (rows rows' : Block Cx) :
    ∃ d d' x x', writeBlock (encData .row sq e nPol nCh nAnt dith fuel data) bits nR (symbolCount nR nPol nCh)
        packed unpacked = .ok d ∧
      writeBlock (encData .row sq e nPol nCh nAnt dith fuel data') bits nR (symbolCount nR nPol nCh)
        packed' unpacked' = .ok d' ∧
      readBlock (decData .row e nPol nCh nAnt A) bits nR (symbolCount nR nPol nCh) nR dflt d out rows = .ok x ∧
      readBlock (decData .row e nPol nCh nAnt A') bits nR (symbolCount nR nPol nCh) nR dflt' d' out' rows' = .ok x' ∧
      ∀ r M, r < nR → IsMax (nPol * nCh) (D r) M → 0 < M →
        (∀ k, k < nPol * nCh * 2 → symbolAt bits (4 * nR) d' (r * (nPol * nCh) * 2 + k) =
          symbolAt bits (4 * nR) d (r * (nPol * nCh) * 2 + k)) ∧
        ((2 : ℚ) ^ (-126 : ℤ) ≤ M / L → M / L ≤ 2 ^ (126 : ℤ) → (2 : ℚ) ^ (-126 : ℤ) ≤ M * 2 ^ j r / L →
          M * 2 ^ j r / L ≤ 2 ^ (126 : ℤ) →
          (∃ f, (metaView nR d).get r = .fin f ∧ (metaView nR d').get r = .fin (f * 2 ^ j r)) ∧
          ∀ i, i < nPol * nCh →
            (∀ y, ((x.get r).vis.get i).re = .fin y → (2 : ℚ) ^ (-126 : ℤ) < |y| → |y| < 2 ^ (127 : ℤ) →
              (2 : ℚ) ^ (-126 : ℤ) < |y * 2 ^ j r| → |y * 2 ^ j r| < 2 ^ (127 : ℤ) →
              ((x'.get r).vis.get i).re = .fin (y * 2 ^ j r)) ∧
            (∀ y, ((x.get r).vis.get i).im = .fin y → (2 : ℚ) ^ (-126 : ℤ) < |y| → |y| < 2 ^ (127 : ℤ) →
              (2 : ℚ) ^ (-126 : ℤ) < |y * 2 ^ j r| → |y * 2 ^ j r| < 2 ^ (127 : ℤ) →
              ((x'.get r).vis.get i).im = .fin (y * 2 ^ j r)) ∧
            (((x.get r).vis.get i).re = .nan → ((x'.get r).vis.get i).re = .nan) ∧
            (((x.get r).vis.get i).im = .nan → ((x'.get r).vis.get i).im = .nan)) := by
  have hn : e.n - 1 < e.n := by have := hT.levels.two; omega
  have hLr : Fl.Repr Fl.binary32 L := by rw [← hT.top]; exact (hl _ hn).1
  have hL2 : L < 2 ^ (128 : ℤ) := by rw [← hT.top]; exact lt_of_le_of_lt (le_abs_self _) (hl _ hn).2
  obtain ⟨d, x, s, e1, e2, e3, e4, e5, e6⟩ := row_block (nAnt := nAnt) sq hT hb hq hR h dith fuel hp hu ho dflt rows
  obtain ⟨d', x', s', e1', e2', e3', e4', e5', e6'⟩ := row_block (nAnt := nAnt) sq hT hb hq hR h' dith fuel hp' hu' ho'
    dflt' rows'
  refine ⟨d, d', x, x', e1, e1', e2, e2', fun r M hr hM hM0 => ?_⟩
  have hM' := isMax_scale2 (j r) hM
  obtain ⟨hMr, hM2⟩ := Row.max_float hM (fun i hi => hF r i hr hi)
  obtain ⟨hMr', hM2'⟩ := Row.max_float hM' (fun i hi => hF' r i hr hi)
  have hjp := Fl.zp_pos (j r)
  have hM0' : 0 < M * 2 ^ j r := mul_pos hM0 hjp
  obtain ⟨⟨P, P0, p1, p2, p3⟩, Q, Q0, q1, q2⟩ := r64_ratio hMr hM0 hM2 hMr' hM2' hLr hT.pos hL2
  have f1 := maxFold_eq hM
  have f2 := maxFold_eq hM'
  have hs : ∀ i, i < nPol * nCh → s' ((r * (nPol * nCh) + i) * 2) = s ((r * (nPol * nCh) + i) * 2) ∧
      s' ((r * (nPol * nCh) + i) * 2 + 1) = s ((r * (nPol * nCh) + i) * 2 + 1) := by
    intro i hi
    have h1 := e5 r i hr hi
    have h2 := e5' r i hr hi
    simp only [f2, rowFactor_pos hM0'.ne', q2] at h2
    simp only [Cx.scale2, component_scale2 _ Q0] at h2
    simp only [f1, rowFactor_pos hM0.ne', q1] at h1
    rw [h1.1, h1.2] at h2
    exact ⟨by simpa using h2.1.symm, by simpa using h2.2.symm⟩
  have hlt : ∀ i, i < nPol * nCh → (r * (nPol * nCh) + i) * 2 + 1 < symbolCount nR nPol nCh := by
    intro i hi
    rw [symbolCount_eq]
    have := flat_lt hr hi
    omega
  constructor
  · intro k hk
    have hi : k / 2 < nPol * nCh := by omega
    have h1 := hs (k / 2) hi
    have h2 := hlt (k / 2) hi
    rcases Nat.mod_two_eq_zero_or_one k with h0 | h0
    · have ek : r * (nPol * nCh) * 2 + k = (r * (nPol * nCh) + k / 2) * 2 := by omega
      rw [ek, (e3 _ (by omega)).2, (e3' _ (by omega)).2, h1.1]
    · have ek : r * (nPol * nCh) * 2 + k = (r * (nPol * nCh) + k / 2) * 2 + 1 := by omega
      rw [ek, (e3 _ (by omega)).2, (e3' _ (by omega)).2, h1.2]
  · intro b1 b2 b1' b2'
    have z : ∀ {i j : ℤ}, i ≤ j → (2 : ℚ) ^ i ≤ 2 ^ j := fun h => zpow_le_zpow_right₀ (by norm_num) h
    have ex : M * 2 ^ j r / L = M / L * 2 ^ j r := by rw [div_mul_eq_mul_div]
    have hx0 : 0 < M / L := div_pos hM0 hT.pos
    have p1' : Fl.r64 (M / L) = .fin P := by simpa only [Fl.div, if_neg hT.pos.ne'] using p1
    have p2' : Fl.r64 (M * 2 ^ j r / L) = .fin (P * 2 ^ j r) := by simpa only [Fl.div, if_neg hT.pos.ne'] using p2
    have c1 : (2 : ℚ) ^ (-126 : ℤ) ≤ |P| := r64_pow_le (by norm_num) p1' (by rw [abs_of_pos hx0]; exact b1)
    have c1' : (2 : ℚ) ^ (-126 : ℤ) ≤ |P * 2 ^ j r| :=
      r64_pow_le (by norm_num) p2' (by rw [ex, abs_of_pos (mul_pos hx0 hjp), ← ex]; exact b1')
    have hPx : P ≤ 2 * (M / L) := by
      have h53 : (2 : ℚ) ^ (-53 : ℤ) ≤ 1 := by norm_num
      have h4 := mul_le_mul_of_nonneg_left h53 hx0.le
      have h5 := (abs_le.1 p3).2
      generalize M / L * 2 ^ (-53 : ℤ) = t at h4 h5
      linarith
    have two : ∀ {t : ℚ}, t ≤ 2 ^ (126 : ℤ) → 2 * t ≤ 2 ^ (127 : ℤ) := by
      intro t ht
      have e : (2 : ℚ) ^ (127 : ℤ) = 2 * 2 ^ (126 : ℤ) := by norm_num
      rw [e]
      exact mul_le_mul_of_nonneg_left ht (by norm_num)
    have c2 : |P| ≤ 2 ^ (127 : ℤ) := by
      rw [abs_of_pos P0]
      exact le_trans hPx (two b2)
    have c2' : |P * 2 ^ j r| ≤ 2 ^ (127 : ℤ) := by
      rw [abs_of_pos (mul_pos P0 hjp)]
      refine le_trans (mul_le_mul_of_nonneg_right hPx hjp.le) ?_
      rw [mul_assoc, ← ex]
      exact two b2'
    obtain ⟨f, g1, g2⟩ := Fl.r32_mul_pow c1 c2 c1' c2'
    have m1 : (metaView nR d).get r = .fin f := by
      rw [e4 r hr, f1, p1]
      exact g1
    have m2 : (metaView nR d').get r = .fin (f * 2 ^ j r) := by
      rw [e4' r hr, f2, p2]
      exact g2
    have lf := (r32_pow_le (by norm_num) g1).1 c1
    have uf := (r32_pow_le (by norm_num) g1).2 c2
    have lf' := (r32_pow_le (by norm_num) g2).1 c1'
    have uf' := (r32_pow_le (by norm_num) g2).2 c2'
    have hf0 : 0 ≤ f := by
      have : Fl.rnd Fl.binary32 P = f := by
        unfold Fl.r32 Fl.round at g1
        split at g1
        · simpa using g1
        · cases g1
      rw [← this]
      exact Fl.rnd_nonneg _ P0.le
    rw [abs_of_nonneg hf0] at lf uf
    rw [abs_of_nonneg (mul_nonneg hf0 hjp.le)] at lf' uf'
    refine ⟨⟨f, m1, m2⟩, fun i hi => ?_⟩
    have key : ∀ k, k < symbolCount nR nPol nCh →
        (∀ y, Fl.cast Fl.r32 (Fl.mul Fl.r64 (e.level (s k)) (.fin f)) = .fin y → (2 : ℚ) ^ (-126 : ℤ) < |y| →
          |y| < 2 ^ (127 : ℤ) → (2 : ℚ) ^ (-126 : ℤ) < |y * 2 ^ j r| → |y * 2 ^ j r| < 2 ^ (127 : ℤ) →
          Fl.cast Fl.r32 (Fl.mul Fl.r64 (e.level (s k)) (.fin (f * 2 ^ j r))) = .fin (y * 2 ^ j r)) ∧
        (Fl.cast Fl.r32 (Fl.mul Fl.r64 (e.level (s k)) (.fin f)) = .nan →
          Fl.cast Fl.r32 (Fl.mul Fl.r64 (e.level (s k)) (.fin (f * 2 ^ j r))) = .nan) := by
      intro k hk
      rcases Nat.lt_or_ge (s k) e.n with hsk | hsk
      · rw [hT.levels.eq _ hsk]
        obtain ⟨l1, l2⟩ := hl _ hsk
        have l3 : l (s k) = 0 ∨ (2 : ℚ) ^ (-149 : ℤ) ≤ |l (s k)| := by
          rcases eq_or_ne (l (s k)) 0 with h0 | h0
          · exact Or.inl h0
          · refine Or.inr (Fl.repr32_ge ?_ (abs_pos.2 h0))
            rcases abs_choice (l (s k)) with ha | ha <;> rw [ha]
            · exact l1
            · exact l1.neg
        constructor
        · intro y hy y1 y2 y1' y2'
          exact read_scaled l3 l2.le (le_trans (z (by norm_num)) lf) (le_trans uf (z (by norm_num)))
            (le_trans (z (by norm_num)) lf') (le_trans uf' (z (by norm_num))) hy y1 y2 y1' y2'
        · intro hy
          exfalso
          simp only [Fl.mul, Fl.r64, Fl.round] at hy
          split at hy
          · simp only [Fl.cast, Fl.r32, Fl.round] at hy
            split at hy <;> cases hy
          · cases hy
      · have : e.level (s k) = .nan := by
          have h1 := (e3 k hk).1
          rw [← hq, Encoder.quantCount] at h1
          obtain h2 : s k = e.n := by omega
          rw [h2, hT.levels.slot]
        rw [this]
        exact ⟨fun y hy => by simp [Fl.mul, Fl.cast] at hy, fun _ => by simp [Fl.mul, Fl.cast]⟩
    have k1 := key _ (by have := hlt i hi; omega : (r * (nPol * nCh) + i) * 2 < symbolCount nR nPol nCh)
    have k2 := key _ (hlt i hi)
    rw [e6 r i hr hi, e6' r i hr hi, (hs i hi).1, (hs i hi).2, m1, m2]
    exact ⟨k1.1, k2.1, k1.2, k2.2⟩

/-- **C135** All weights of a block multiplied by `2 ^ j`, with at least one positive weight: the symbols are the same, the
stored maximum is multiplied by `2 ^ j`, and so is every weight that is read back and is a normal float before and after. -/
theorem weights_scaled {rows rows' : Block Fl} (hb : Supported bits) (hp : 1 ≤ nPol) (hc : 0 < nCh) (j : ℤ)
    {W : Nat → Nat → Nat → ℚ} (hlen : rows'.len = rows.len) (hW : Weight.HoldsWeights nPol nCh rows W)
    (hW' : Weight.HoldsWeights nPol nCh rows' (fun r c p => W r c p * 2 ^ j))
    (hF : Weight.FloatWeights rows.len nCh nPol W)
    (hF' : Weight.FloatWeights rows.len nCh nPol (fun r c p => W r c p * 2 ^ j)) {m : Nat → Nat → ℚ}
    (hm : ∀ r c, r < rows.len → c < nCh → Weight.IsMin nPol (W r c) (m r c))
    (hpos : ∃ r c, r < rows.len ∧ c < nCh ∧ 0 < m r c)
    {packed packed' : Mem 8} {unpacked unpacked' out out' : Buf Nat}
    (hp1 : packed.len = blockSize Weight.metaDataFloatCount (Weight.symbolCount rows.len nCh) bits)
    (hp2 : packed'.len = blockSize Weight.metaDataFloatCount (Weight.symbolCount rows.len nCh) bits)
    (hu1 : unpacked.len = Weight.symbolCount rows.len nCh) (hu2 : unpacked'.len = Weight.symbolCount rows.len nCh)
    (ho1 : out.len = Weight.symbolCount rows.len nCh) (ho2 : out'.len = Weight.symbolCount rows.len nCh)
    (dflt dflt' : DataRow Fl) (dest dest' : Block Fl) :
    ∃ d d' x x', writeBlock (encWeight nPol nCh bits rows) bits Weight.metaDataFloatCount
        (Weight.symbolCount rows.len nCh) packed unpacked = .ok d ∧
      writeBlock (encWeight nPol nCh bits rows') bits Weight.metaDataFloatCount
        (Weight.symbolCount rows.len nCh) packed' unpacked' = .ok d' ∧
      readBlock (decWeight nPol nCh bits) bits Weight.metaDataFloatCount
        (Weight.symbolCount rows.len nCh) rows.len dflt d out dest = .ok x ∧
      readBlock (decWeight nPol nCh bits) bits Weight.metaDataFloatCount
        (Weight.symbolCount rows.len nCh) rows.len dflt' d' out' dest' = .ok x' ∧
      (∀ k, k < rows.len * nCh → symbolAt bits 4 d' k = symbolAt bits 4 d k) ∧
      (∃ M, (metaView 1 d).get 0 = .fin M ∧ (metaView 1 d').get 0 = .fin (M * 2 ^ j) ∧ Weight.IsBlockMax rows.len nCh m M) ∧
      ∀ r i, r < rows.len → i < nCh * nPol → ∀ y, (x.get r).vis.get i = .fin y → (2 : ℚ) ^ (-126 : ℤ) < |y| →
        |y| < 2 ^ (127 : ℤ) → (2 : ℚ) ^ (-126 : ℤ) < |y * 2 ^ j| → |y * 2 ^ j| < 2 ^ (127 : ℤ) →
        (x'.get r).vis.get i = .fin (y * 2 ^ j) := by
  have hjp := Fl.zp_pos j
  have z : ∀ {i j : ℤ}, i ≤ j → (2 : ℚ) ^ i ≤ 2 ^ j := fun h => zpow_le_zpow_right₀ (by norm_num) h
  have hq : 2 ≤ 2 ^ bits := by
    have : 2 ^ 1 ≤ 2 ^ bits := Nat.pow_le_pow_right (by decide) (by unfold Supported at hb; omega)
    simpa using this
  have hq2 : 2 ^ bits ≤ 2 ^ 16 := Nat.pow_le_pow_right (by decide) (by unfold Supported at hb; omega)
  have hm' : ∀ r c, r < rows.len → c < nCh → Weight.IsMin nPol (fun p => W r c p * 2 ^ j) (m r c * 2 ^ j) := by
    intro r c hr hc'
    obtain ⟨⟨p, h1, h2⟩, h3⟩ := hm r c hr hc'
    exact ⟨⟨p, h1, by simp only [h2]⟩, fun p hp => mul_le_mul_of_nonneg_right (h3 p hp) hjp.le⟩
  obtain ⟨M, sym, hM, hw, henc⟩ := weightWrites hb hp hW hF hm
  obtain ⟨M', sym', hM', hw', henc'⟩ := weightWrites hb hp hW' (by rw [hlen]; exact hF') (by rw [hlen]; exact hm')
  rw [hlen] at hM' hw' henc'
  obtain ⟨hmf, hM0, hMr, hM2⟩ := Weight.float_min_max hF hm hM
  obtain rfl : M' = M * 2 ^ j := by
    refine Weight.IsBlockMax.unique hM' ⟨fun r c hr hc' => mul_le_mul_of_nonneg_right (hM.1 r c hr hc') hjp.le, Or.inl ?_⟩
    rcases hM.2 with ⟨h1, r, c, hr, hc', e⟩ | ⟨-, h⟩
    · exact ⟨mul_pos h1 hjp, r, c, hr, hc', by simp only [e]⟩
    · obtain ⟨r, c, hr, hc', h1⟩ := hpos
      exact absurd h1 (not_lt.2 (h r c hr hc'))
  obtain ⟨-, -, hMr', hM2'⟩ := Weight.float_min_max hF' hm' hM'
  have hk0 : 0 < 2 ^ bits - 1 := by omega
  have hkq : (0 : ℚ) < ((2 ^ bits - 1 : Nat) : ℚ) := by exact_mod_cast hk0
  have hk16 : ((2 ^ bits - 1 : Nat) : ℚ) < 2 ^ (128 : ℤ) := by
    refine lt_of_lt_of_le (b := ((2 ^ 16 : Nat) : ℚ)) (by exact_mod_cast (by omega)) ?_
    exact le_trans (by norm_num) (z (i := 16) (j := 128) (by norm_num))
  have hkr : Fl.Repr Fl.binary32 ((2 ^ bits - 1 : Nat) : ℚ) := Fl.repr32_nat (by omega)
  obtain ⟨⟨P, P0, p1, p2, p3⟩, Q, Q0, q1, q2⟩ := r64_ratio hMr hM0 hM2 hMr' hM2' hkr hkq hk16
  have hsym : ∀ k, k < Weight.symbolCount rows.len nCh → sym'.get k = sym.get k := by
    intro k hk
    have hk' : k < rows.len * nCh := hk
    have hdm := Nat.div_add_mod k nCh
    rw [Nat.mul_comm] at hdm
    have hr : k / nCh < rows.len := (Nat.div_lt_iff_lt_mul hc).2 hk'
    have h1 := henc (k / nCh) (k % nCh) hr (Nat.mod_lt _ hc)
    have h2 := henc' (k / nCh) (k % nCh) hr (Nat.mod_lt _ hc)
    have e := component_scale2 (.fin (m (k / nCh) (k % nCh))) (j := j) Q0
    simp only [Fl.scale2] at e
    simp only [Weight.encodeSample] at h1 h2
    rw [q2, e, ← q1, h1, hdm] at h2
    exact (Option.some.inj h2).symm
  obtain ⟨blk, l1, g1, g2, g3⟩ := writeBlock_spec hb hw
  obtain ⟨d, e1, k1, v1⟩ := g1 packed unpacked hp1 hu1
  have hH := End.holds_of_writes hb hw hp1 hu1 e1
  obtain ⟨x, e2, -, gx⟩ := readBlock_spec (weightReads (nR := rows.len) (nPol := nPol) (bits := bits) hc) hH.metaLen hH.symLen
    hH.below hH.size hH.floats hH.symbols dflt out ho1 dest
  obtain ⟨blk', l1', g1', g2', g3'⟩ := writeBlock_spec hb hw'
  obtain ⟨d', e1', k1', v1'⟩ := g1' packed' unpacked' hp2 hu2
  have hH' := End.holds_of_writes hb hw' hp2 hu2 e1'
  obtain ⟨x', e2', -, gx'⟩ := readBlock_spec (weightReads (nR := rows.len) (nPol := nPol) (bits := bits) hc) hH'.metaLen
    hH'.symLen hH'.below hH'.size hH'.floats hH'.symbols dflt' out' ho2 dest'
  have at1 : ∀ {s0 : Buf Nat} {m0 : Buf Fl} {b0 : Mem 8},
      End.BlockHolds bits Weight.metaDataFloatCount (Weight.symbolCount rows.len nCh) m0 s0 b0 →
      ∀ k, k < Weight.symbolCount rows.len nCh → symbolAt bits 4 b0 k = s0.get k := by
    intro s0 m0 b0 h0 k hk
    obtain ⟨t, c1, -, c3⟩ := unpack_any hb h0.size ⟨Weight.symbolCount rows.len nCh, fun _ => 0⟩ rfl
    obtain ⟨t', c1', -, c3'⟩ := h0.symbols ⟨Weight.symbolCount rows.len nCh, fun _ => 0⟩ rfl
    rw [c1] at c1'
    obtain rfl : t = t' := by simpa using c1'
    exact (c3 k hk).symm.trans (c3' k hk)
  refine ⟨d, d', x, x', e1, e1', e2, e2', fun k hk => ?_, ⟨M, hH.floats 0 (by decide), hH'.floats 0 (by decide), hM⟩,
    fun r i hr hi y hy y1 y2 y1' y2' => ?_⟩
  · rw [at1 hH k hk, at1 hH' k hk, hsym k hk]
  · have hi' : i / nPol < nCh := (Nat.div_lt_iff_lt_mul hp).2 hi
    rw [(gx r hr).2 i hi] at hy
    rw [(gx' r hr).2 i hi]
    have hk : r * nCh + i / nPol < Weight.symbolCount rows.len nCh := flat_lt hr hi'
    simp only [Weight.decodeSample, p1] at hy
    simp only [Weight.decodeSample, p2, hsym _ hk]
    have hb1 := hw.below _ hk
    generalize sym.get (r * nCh + i / nPol) = s at hy hb1
    have hR := ratio_range hMr hM0 hM2 hkr hkq hk16
    have hR' := ratio_range hMr' (mul_pos hM0 hjp) hM2' hkr hkq hk16
    have hx0 : 0 < M / ((2 ^ bits - 1 : Nat) : ℚ) := div_pos hM0 hkq
    have ex : M * 2 ^ j / ((2 ^ bits - 1 : Nat) : ℚ) = M / ((2 ^ bits - 1 : Nat) : ℚ) * 2 ^ j := by rw [div_mul_eq_mul_div]
    rw [ex] at hR'
    generalize M / ((2 ^ bits - 1 : Nat) : ℚ) = t at *
    have hlow : t ≤ 2 * P := by
      have h53 : (2 : ℚ) ^ (-53 : ℤ) ≤ 1 / 2 := by norm_num
      have h4 := mul_le_mul_of_nonneg_left h53 hx0.le
      have h5 := (abs_le.1 p3).1
      generalize t * 2 ^ (-53 : ℤ) = u at h4 h5
      linarith
    have hhigh : P ≤ 2 * t := by
      have h53 : (2 : ℚ) ^ (-53 : ℤ) ≤ 1 := by norm_num
      have h4 := mul_le_mul_of_nonneg_left h53 hx0.le
      have h5 := (abs_le.1 p3).2
      generalize t * 2 ^ (-53 : ℤ) = u at h4 h5
      linarith
    have lo : ∀ {u v : ℚ}, (2 : ℚ) ^ (-277 : ℤ) ≤ u → u ≤ 2 * v → (2 : ℚ) ^ (-300 : ℤ) ≤ v := by
      intro u v h1 h2
      have h3 : (2 : ℚ) * 2 ^ (-300 : ℤ) = 2 ^ (-299 : ℤ) := by
        rw [← zpow_one_add₀ (by norm_num)]
        norm_num
      have h4 : (2 : ℚ) * 2 ^ (-300 : ℤ) ≤ 2 * v := by
        rw [h3]
        exact le_trans (z (by norm_num)) (le_trans h1 h2)
      exact le_of_mul_le_mul_left h4 (by norm_num)
    have hi : ∀ {u v : ℚ}, u ≤ 2 ^ (277 : ℤ) → v ≤ 2 * u → v ≤ 2 ^ (300 : ℤ) := by
      intro u v h1 h2
      have h3 : (2 : ℚ) * 2 ^ (277 : ℤ) = 2 ^ (278 : ℤ) := by
        rw [← zpow_one_add₀ (by norm_num)]
        norm_num
      refine le_trans h2 (le_trans (mul_le_mul_of_nonneg_left h1 (by norm_num)) ?_)
      rw [h3]
      exact z (by norm_num)
    have sc : ∀ {u v : ℚ}, u ≤ 2 * v → u * 2 ^ j ≤ 2 * (v * 2 ^ j) := by
      intro u v h1
      rw [← mul_assoc]
      exact mul_le_mul_of_nonneg_right h1 hjp.le
    have s128 : |(s : ℚ)| ≤ 2 ^ (128 : ℤ) := by
      rw [Nat.abs_cast]
      refine le_trans (b := ((2 ^ 16 : Nat) : ℚ)) (by exact_mod_cast (by omega)) ?_
      exact le_trans (by norm_num) (z (i := 16) (j := 128) (by norm_num))
    have s0 : (s : ℚ) = 0 ∨ (2 : ℚ) ^ (-149 : ℤ) ≤ |(s : ℚ)| := by
      rcases Nat.eq_zero_or_pos s with h | h
      · exact Or.inl (by rw [h]; norm_num)
      · refine Or.inr (le_trans (zpow_le_one_of_nonpos₀ (by norm_num) (by norm_num)) ?_)
        rw [Nat.abs_cast]
        exact_mod_cast h
    exact read_scaled s0 s128 (lo hR.1 hlow) (hi hR.2 hhigh) (lo hR'.1 (sc hlow)) (hi hR'.2 (sc hhigh)) hy y1 y2 y1' y2'

/-! ## Examples -/

/-- A row of two samples `1 + i/2`, multiplied by four: same symbols, and four times the stored
factor. -/
example (packed packed' : Mem 8) (hl : packed.len = 5) (hl' : packed'.len = 5) (dflt : DataRow Cx) (rows : Block Cx) :
    ∃ d d', writeBlock (encData .row id Row.smallTable 1 2 2 (fun _ => 0) 5
        ⟨1, fun _ => ⟨0, 1, ⟨2, fun _ => ⟨.fin 1, .fin (1 / 2)⟩⟩⟩⟩) 2 1 4 packed ⟨4, fun _ => 0⟩ = .ok d ∧
      writeBlock (encData .row id Row.smallTable 1 2 2 (fun _ => 0) 5
        ⟨1, fun _ => ⟨0, 1, ⟨2, fun _ => (⟨.fin 1, .fin (1 / 2)⟩ : Cx).scale2 2⟩⟩⟩) 2 1 4 packed' ⟨4, fun _ => 0⟩ = .ok d' ∧
      (∀ k, k < 4 → symbolAt 2 4 d' k = symbolAt 2 4 d k) ∧
      ∃ f, (metaView 1 d).get 0 = .fin f ∧ (metaView 1 d').get 0 = .fin (f * 2 ^ (2 : ℤ)) := by
  have hM : IsMax 2 (fun _ : Nat => (⟨.fin 1, .fin (1 / 2)⟩ : Cx)) 1 := by
    refine ⟨by norm_num, fun i m _ h => ?_, Or.inr ⟨0, by decide, 1, rfl, Or.inl ⟨1 / 2, rfl, by norm_num [abs_of_pos]⟩⟩⟩
    obtain ⟨a, h1, ⟨b, h2, h3⟩ | ⟨h2, -⟩⟩ := h
    · obtain rfl : (1 : ℚ) = a := by simpa using h1
      obtain rfl : (1 / 2 : ℚ) = b := by simpa using h2
      rw [h3]
      norm_num [abs_of_pos]
    · cases h2
  have hv : ∀ (k : Int), k ∈ [(1 : ℤ), 2, 4, 8] → Fl.Repr Fl.binary32 ((k : ℚ) * 2 ^ (-1 : ℤ)) ∧ |(k : ℚ) * 2 ^ (-1 : ℤ)| < 2 ^ (128 : ℤ) := by
    intro k hk
    have hk : k = 1 ∨ k = 2 ∨ k = 4 ∨ k = 8 := by simpa using hk
    refine ⟨Fl.repr_int_mul k _ (by decide) ?_, ?_⟩
    · rcases hk with rfl | rfl | rfl | rfl <;> norm_num [Fl.binary32]
    · rcases hk with rfl | rfl | rfl | rfl <;> norm_num [abs_of_pos]
  have hf : ∀ a : ℚ, a = 1 ∨ a = 1 / 2 ∨ a = 4 ∨ a = 2 → Fl.Repr Fl.binary32 a ∧ |a| < 2 ^ (128 : ℤ) := by
    intro a ha
    rcases ha with rfl | rfl | rfl | rfl
    · simpa using hv 2 (by decide)
    · simpa using hv 1 (by decide)
    · have := hv 8 (by decide)
      norm_num at this ⊢
      exact this
    · have := hv 4 (by decide)
      norm_num at this ⊢
      exact this
  have hl0 : ∀ i, i < Row.smallTable.n → Fl.Repr Fl.binary32 ((i : ℚ) - 1) ∧ |(i : ℚ) - 1| < 2 ^ (128 : ℤ) := by
    intro i hi
    have hi : i < 3 := hi
    obtain rfl | rfl | rfl : i = 0 ∨ i = 1 ∨ i = 2 := by omega
    · have := hf 1 (Or.inl rfl)
      rw [show ((0 : Nat) : ℚ) - 1 = -1 by norm_num, abs_neg]
      exact ⟨this.1.neg, this.2⟩
    · rw [show ((1 : Nat) : ℚ) - 1 = 0 by norm_num, abs_zero]
      exact ⟨Fl.Repr.zero _, Fl.zp_pos _⟩
    · rw [show ((2 : Nat) : ℚ) - 1 = 1 by norm_num]
      exact hf 1 (Or.inl rfl)
  obtain ⟨d, d', x, x', e1, e2, -, -, h⟩ := row_scaled (nR := 1) (nPol := 1) (nCh := 2) (nAnt := 2) (bits := 2)
    (A := fun _ => (0, 1)) (A' := fun _ => (0, 1)) (D := fun _ _ => ⟨.fin 1, .fin (1 / 2)⟩) id Row.smallTable_ok hl0 (Or.inl rfl) rfl
    (by decide) (fun _ => 2) (data := ⟨1, fun _ => ⟨0, 1, ⟨2, fun _ => ⟨.fin 1, .fin (1 / 2)⟩⟩⟩⟩)
    (data' := ⟨1, fun _ => ⟨0, 1, ⟨2, fun _ => (⟨.fin 1, .fin (1 / 2)⟩ : Cx).scale2 2⟩⟩⟩)
    ⟨rfl, fun _ _ => rfl, fun _ _ => rfl, fun _ _ _ _ => rfl⟩ ⟨rfl, fun _ _ => rfl, fun _ _ => rfl, fun _ _ _ _ => rfl⟩
    (fun r i _ _ a ha => hf a (by
      rcases ha with ha | ha
      · exact Or.inl (by simpa using ha.symm)
      · exact Or.inr (Or.inl (by simpa using ha.symm))))
    (fun r i _ _ a ha => hf a (by
      simp only [Cx.scale2, Fl.scale2] at ha
      rcases ha with ha | ha
      · refine Or.inr (Or.inr (Or.inl ?_))
        have := (Fl.fin.inj ha).symm
        norm_num at this
        exact this
      · refine Or.inr (Or.inr (Or.inr ?_))
        have := (Fl.fin.inj ha).symm
        norm_num at this
        exact this))
    (fun _ => 0) 5 hl hl' (unpacked := ⟨4, fun _ => 0⟩) (unpacked' := ⟨4, fun _ => 0⟩) (out := ⟨4, fun _ => 0⟩)
    (out' := ⟨4, fun _ => 0⟩) rfl rfl rfl rfl dflt dflt rows rows
  obtain ⟨h1, h2⟩ := h 0 1 (by decide) hM (by norm_num)
  refine ⟨d, d', e1, e2, fun k hk => ?_, (h2 ?_ ?_ ?_ ?_).1⟩
  · simpa using h1 k hk
  all_goals norm_num

/-- The weights 1, 2 and 3, divided by eight. -/
example (packed packed' : Mem 8) (hl : packed.len = 5) (hl' : packed'.len = 5) (dflt : DataRow Fl) (dest : Block Fl) :
    ∃ d d', writeBlock (encWeight 1 3 2 ⟨1, fun _ => ⟨0, 1, ⟨3, fun i => .fin ((i : ℚ) + 1)⟩⟩⟩) 2 1 3 packed
        ⟨3, fun _ => 0⟩ = .ok d ∧
      writeBlock (encWeight 1 3 2 ⟨1, fun _ => ⟨0, 1, ⟨3, fun i => .fin (((i : ℚ) + 1) * 2 ^ (-3 : ℤ))⟩⟩⟩) 2 1 3 packed'
        ⟨3, fun _ => 0⟩ = .ok d' ∧
      ∀ k, k < 3 → symbolAt 2 4 d' k = symbolAt 2 4 d k := by
  have hr : ∀ i : Nat, i < 3 → Fl.Repr Fl.binary32 ((i : ℚ) + 1) := by
    intro i hi
    have := Fl.repr32_nat (n := i + 1) (by omega)
    push_cast at this
    exact this
  have hlt : ∀ i : Nat, i < 3 → (i : ℚ) + 1 < 2 ^ (128 : ℤ) := by
    intro i hi
    have h1 : (i : ℚ) < 3 := by exact_mod_cast hi
    refine lt_of_lt_of_le (b := (4 : ℚ)) (by linarith) (by norm_num)
  obtain ⟨d, d', x, x', e1, e2, -, -, h, -⟩ := weights_scaled (nPol := 1) (nCh := 3) (bits := 2)
    (rows := ⟨1, fun _ => ⟨0, 1, ⟨3, fun i => .fin ((i : ℚ) + 1)⟩⟩⟩)
    (rows' := ⟨1, fun _ => ⟨0, 1, ⟨3, fun i => .fin (((i : ℚ) + 1) * 2 ^ (-3 : ℤ))⟩⟩⟩) (Or.inl rfl) (by decide) (by decide) (-3)
    (W := fun _ c _ => (c : ℚ) + 1) (m := fun _ c => (c : ℚ) + 1) rfl
    (fun r _ => ⟨rfl, fun c p _ hp => by
      obtain rfl : p = 0 := by omega
      simp⟩)
    (fun r _ => ⟨rfl, fun c p _ hp => by
      obtain rfl : p = 0 := by omega
      simp⟩)
    (fun r c p _ hc _ => ⟨by positivity, hlt c hc, hr c hc⟩)
    (fun r c p _ hc _ => ⟨by positivity, by
      refine lt_of_le_of_lt ?_ (hlt c hc)
      exact mul_le_of_le_one_right (by positivity) (by norm_num), by
      have := Fl.repr_int_mul (f := Fl.binary32) ((c : ℤ) + 1) (-3) (by decide) (by
        rw [abs_of_nonneg (by positivity)]
        norm_num [Fl.binary32]
        omega)
      push_cast at this
      exact this⟩)
    (fun r c _ _ => ⟨⟨0, by decide, rfl⟩, fun _ _ => le_rfl⟩) ⟨0, 0, by decide, by decide, by norm_num⟩ hl hl'
    (unpacked := ⟨3, fun _ => 0⟩) (unpacked' := ⟨3, fun _ => 0⟩) (out := ⟨3, fun _ => 0⟩) (out' := ⟨3, fun _ => 0⟩)
    rfl rfl rfl rfl dflt dflt dest dest
  exact ⟨d, d', e1, e2, h⟩

end Dysco.Layout
