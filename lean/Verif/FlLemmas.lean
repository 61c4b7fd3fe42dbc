import Verif.FlModel
import Mathlib.Tactic.Linarith
import Mathlib.Tactic.Positivity
import Mathlib.Tactic.Ring
import Mathlib.Tactic.FieldSimp
import Mathlib.Algebra.Order.Field.Power
import Mathlib.Algebra.Order.Floor.Ring

/-! # Lemmas about rounding -/

namespace Dysco.Fl

theorem roundEven_spec (x : ℚ) :
    |(roundEven x : ℚ) - x| ≤ 1 / 2 := by
  have h1 := Int.floor_le x
  have h2 := Int.lt_floor_add_one x
  unfold roundEven
  rw [abs_le]
  split
  · constructor <;> linarith
  · split
    · push_cast; constructor <;> linarith
    · split
      · constructor <;> linarith
      · push_cast; constructor <;> linarith

theorem roundEven_int (n : ℤ) : roundEven (n : ℚ) = n := by
  simp [roundEven]

/-- An integer at or below `x` is at or below its rounding. -/
theorem le_roundEven {n : ℤ} {x : ℚ} (h : (n : ℚ) ≤ x) : n ≤ roundEven x := by
  have := Int.le_floor.mpr h
  unfold roundEven
  split
  · exact this
  · split
    · omega
    · split <;> omega

theorem roundEven_le {n : ℤ} {x : ℚ} (h : x ≤ (n : ℚ)) : roundEven x ≤ n := by
  have h1 := Int.floor_le x
  have h2 := Int.lt_floor_add_one x
  by_cases hx : x = n
  · rw [hx, roundEven_int]
  · have h3 : ⌊x⌋ < n := by
      rw [Int.floor_lt]
      exact lt_of_le_of_ne h hx
    unfold roundEven
    split
    · omega
    · split
      · omega
      · split <;> omega

theorem roundEven_eq_of_lt {n : ℤ} {x : ℚ} (h1 : (n : ℚ) - 1 / 2 < x) (h2 : x < n + 1 / 2) :
    roundEven x = n := by
  have h := roundEven_spec x
  rw [abs_le] at h
  have h3 : (roundEven x : ℚ) < n + 1 := by linarith
  have h4 : (n : ℚ) - 1 < roundEven x := by linarith
  have h3' : roundEven x < n + 1 := by exact_mod_cast h3
  have h4' : n - 1 < roundEven x := by exact_mod_cast h4
  omega

theorem roundEven_mono {x y : ℚ} (h : x ≤ y) : roundEven x ≤ roundEven y := by
  by_cases hf : ⌊x⌋ = ⌊y⌋
  · have h1 := Int.floor_le x
    unfold roundEven
    rw [hf]
    split_ifs <;> first | omega | (exfalso; linarith)
  · have hlt : ⌊x⌋ < ⌊y⌋ := lt_of_le_of_ne (Int.floor_le_floor h) hf
    have hx : x ≤ ((⌊x⌋ + 1 : ℤ) : ℚ) := by push_cast; exact le_of_lt (Int.lt_floor_add_one x)
    have h1 := roundEven_le hx
    have h2 := le_roundEven (Int.floor_le y)
    omega

theorem roundEven_neg (x : ℚ) : roundEven (-x) = -roundEven x := by
  by_cases hx : (⌊x⌋ : ℚ) = x
  · rw [← hx]
    have : (-((⌊x⌋ : ℤ) : ℚ)) = ((-⌊x⌋ : ℤ) : ℚ) := by push_cast; ring
    rw [this, roundEven_int, roundEven_int]
  · have h1 := Int.floor_le x
    have h2 := Int.lt_floor_add_one x
    have h1' : (⌊x⌋ : ℚ) < x := lt_of_le_of_ne h1 hx
    have hf : ⌊-x⌋ = -⌊x⌋ - 1 := by
      rw [Int.floor_eq_iff]
      push_cast
      constructor <;> linarith
    unfold roundEven
    rw [hf]
    push_cast
    split_ifs <;> first | omega | (exfalso; linarith)

theorem zp_pos (e : ℤ) : (0 : ℚ) < 2 ^ e := by positivity

theorem ulpExp_neg (f : Fmt) (x : ℚ) : ulpExp f (-x) = ulpExp f x := by
  simp [ulpExp]

theorem rnd_neg (f : Fmt) (x : ℚ) : rnd f (-x) = -rnd f x := by
  unfold rnd
  rw [ulpExp_neg, neg_div, roundEven_neg]
  push_cast
  ring

theorem rnd_zero (f : Fmt) : rnd f 0 = 0 := by
  have : roundEven (0 : ℚ) = 0 := by exact_mod_cast roundEven_int 0
  simp [rnd, this]

theorem emin_le_ulpExp (f : Fmt) (x : ℚ) : f.emin ≤ ulpExp f x := le_max_right _ _

theorem abs_lt_ulp (f : Fmt) (x : ℚ) : |x| < 2 ^ (ulpExp f x + f.p) := by
  by_cases hx : x = 0
  · subst hx; rw [abs_zero]; positivity
  · have h1 := Int.lt_zpow_succ_log_self (b := 2) (by norm_num) |x|
    push_cast at h1
    refine lt_of_lt_of_le h1 (zpow_le_zpow_right₀ (by norm_num) ?_)
    have := le_max_left (Int.log 2 |x| + 1 - (f.p : ℤ)) f.emin
    unfold ulpExp
    omega

theorem ulpExp_mono (f : Fmt) {x y : ℚ} (hx : x ≠ 0) (h : |x| ≤ |y|) : ulpExp f x ≤ ulpExp f y := by
  unfold ulpExp
  have := Int.log_mono_right (b := 2) (abs_pos.mpr hx) h
  apply max_le_max_right
  omega

/-- Values of the format (without the bound on the exponent). -/
def Repr (f : Fmt) (q : ℚ) : Prop :=
  ∃ m k : ℤ, f.emin ≤ k ∧ |m| ≤ 2 ^ f.p ∧ q = m * 2 ^ k

theorem Repr.neg {f : Fmt} {q : ℚ} (h : Repr f q) : Repr f (-q) := by
  obtain ⟨m, k, h1, h2, h3⟩ := h
  exact ⟨-m, k, h1, by simpa using h2, by rw [h3]; push_cast; ring⟩

theorem Repr.zero (f : Fmt) : Repr f 0 := ⟨0, f.emin, le_refl _, by simp, by simp⟩

theorem Repr.abs {f : Fmt} {q : ℚ} (h : Repr f q) : Repr f |q| := by
  rcases abs_choice q with h1 | h1 <;> rw [h1]
  · exact h
  · exact h.neg

theorem repr_int_mul {f : Fmt} (m : ℤ) (k : ℤ) (hk : f.emin ≤ k) (hm : |m| ≤ 2 ^ f.p) :
    Repr f (m * 2 ^ k) := ⟨m, k, hk, hm, rfl⟩

theorem abs_div_ulp_lt (f : Fmt) (x : ℚ) : |x / 2 ^ ulpExp f x| < 2 ^ f.p := by
  rw [abs_div, abs_of_pos (zp_pos _), div_lt_iff₀ (zp_pos _), ← zpow_natCast, ← zpow_add₀ (by norm_num),
    add_comm]
  exact abs_lt_ulp f x

theorem abs_roundEven_le (f : Fmt) (x : ℚ) : |roundEven (x / 2 ^ ulpExp f x)| ≤ 2 ^ f.p := by
  have h := abs_div_ulp_lt f x
  rw [abs_lt] at h
  rw [abs_le]
  constructor
  · apply le_roundEven
    push_cast
    linarith [h.1]
  · apply roundEven_le
    push_cast
    linarith [h.2]

theorem repr_rnd (f : Fmt) (x : ℚ) : Repr f (rnd f x) :=
  ⟨_, _, emin_le_ulpExp f x, abs_roundEven_le f x, rfl⟩

theorem log_of_pow (k : ℤ) : Int.log 2 ((2 : ℚ) ^ k) = k := by
  have := Int.log_zpow (R := ℚ) (b := 2) (by norm_num) k
  push_cast at this
  exact this

theorem div_ulp_int {f : Fmt} (hp : 1 ≤ f.p) {q : ℚ} (h : Repr f q) (e : ℤ)
    (he : e ≤ ulpExp f q) : ∃ n : ℤ, q / 2 ^ e = n := by
  obtain ⟨m, k, h1, h2, hq⟩ := h
  by_cases hq0 : q = 0
  · exact ⟨0, by simp [hq0]⟩
  by_cases hle : e ≤ k
  · obtain ⟨d, hd⟩ := Int.le.dest hle
    refine ⟨m * 2 ^ d, ?_⟩
    rw [div_eq_iff (zp_pos _).ne']
    push_cast
    rw [← zpow_natCast (2 : ℚ) d, mul_assoc, ← zpow_add₀ (by norm_num), hq]
    congr 2
    omega
  · push Not at hle
    have habs : |q| ≤ 2 ^ (k + f.p) := by
      rw [hq, abs_mul, abs_of_pos (zp_pos k), add_comm, zpow_add₀ (by norm_num), zpow_natCast]
      apply mul_le_mul_of_nonneg_right _ (zp_pos k).le
      exact_mod_cast h2
    have hu : ulpExp f q = Int.log 2 |q| + 1 - f.p := by
      unfold ulpExp at he ⊢
      omega
    have hlow := Int.zpow_log_le_self (b := 2) (r := |q|) (by norm_num) (abs_pos.mpr hq0)
    push_cast at hlow
    have hlog : Int.log 2 |q| ≤ k + f.p := by
      have := le_trans hlow habs
      exact (zpow_le_zpow_iff_right₀ (by norm_num : (1 : ℚ) < 2)).mp this
    have he1 : e = k + 1 := by omega
    have hpow : |q| = 2 ^ (k + f.p) := by
      apply le_antisymm habs
      have : k + (f.p : ℤ) = Int.log 2 |q| := by omega
      rw [this]; exact hlow
    have hint : (2 : ℚ) ^ (k + (f.p : ℤ)) / 2 ^ e = ((2 ^ (f.p - 1) : ℤ) : ℚ) := by
      rw [he1, ← zpow_sub₀ (by norm_num)]
      push_cast
      rw [← zpow_natCast]
      congr 1
      omega
    rcases abs_choice q with h3 | h3
    · exact ⟨2 ^ (f.p - 1), by rw [← hint, ← hpow, h3]⟩
    · refine ⟨-2 ^ (f.p - 1), ?_⟩
      have h4 : q = -2 ^ (k + (f.p : ℤ)) := by rw [← hpow, h3]; ring
      rw [h4, neg_div, hint]
      push_cast
      ring

theorem rnd_of_repr {f : Fmt} (hp : 1 ≤ f.p) {q : ℚ} (h : Repr f q) : rnd f q = q := by
  obtain ⟨n, hn⟩ := div_ulp_int hp h _ (le_refl _)
  unfold rnd
  rw [hn, roundEven_int, ← hn, div_mul_cancel₀ _ (zp_pos _).ne']

theorem rnd_idem {f : Fmt} (hp : 1 ≤ f.p) (x : ℚ) : rnd f (rnd f x) = rnd f x :=
  rnd_of_repr hp (repr_rnd f x)

theorem rnd_nonneg (f : Fmt) {x : ℚ} (h : 0 ≤ x) : 0 ≤ rnd f x := by
  unfold rnd
  apply mul_nonneg _ (zp_pos _).le
  have : (0 : ℤ) ≤ roundEven (x / 2 ^ ulpExp f x) := by
    apply le_roundEven
    push_cast
    positivity
  exact_mod_cast this

theorem rnd_mono_pos {f : Fmt} (hp : 1 ≤ f.p) {x y : ℚ} (hx : 0 < x) (h : x ≤ y) :
    rnd f x ≤ rnd f y := by
  have hy : 0 < y := lt_of_lt_of_le hx h
  have hle := ulpExp_mono f (y := y) hx.ne' (by rw [abs_of_pos hx, abs_of_pos hy]; exact h)
  rcases lt_or_eq_of_le hle with hlt | heq
  · have hu : ulpExp f y = Int.log 2 |y| + 1 - f.p := by
      have := emin_le_ulpExp f x
      unfold ulpExp at *
      omega
    have h1 : rnd f x ≤ 2 ^ (ulpExp f x + f.p) := by
      have := abs_roundEven_le f x
      rw [abs_le] at this
      unfold rnd
      rw [add_comm, zpow_add₀ (by norm_num), zpow_natCast]
      apply mul_le_mul_of_nonneg_right _ (zp_pos _).le
      exact_mod_cast this.2
    have h2 : (2 : ℚ) ^ (ulpExp f x + f.p) ≤ 2 ^ (Int.log 2 |y|) := by
      apply zpow_le_zpow_right₀ (by norm_num)
      omega
    have h3 : (2 : ℚ) ^ (Int.log 2 |y|) ≤ rnd f y := by
      have hlow := Int.zpow_log_le_self (b := 2) (r := |y|) (by norm_num) (abs_pos.mpr hy.ne')
      push_cast at hlow
      unfold rnd
      have : (2 ^ (f.p - 1) : ℤ) ≤ roundEven (y / 2 ^ ulpExp f y) := by
        apply le_roundEven
        rw [le_div_iff₀ (zp_pos _)]
        push_cast
        rw [← zpow_natCast, ← zpow_add₀ (by norm_num)]
        rw [abs_of_pos hy] at hlow hu
        have e1 : ((f.p - 1 : ℕ) : ℤ) + ulpExp f y = Int.log 2 y := by omega
        rw [e1]; exact hlow
      have h4 : (2 : ℚ) ^ (Int.log 2 |y|) = ((2 ^ (f.p - 1) : ℤ) : ℚ) * 2 ^ ulpExp f y := by
        push_cast
        rw [← zpow_natCast, ← zpow_add₀ (by norm_num)]
        congr 1
        omega
      rw [h4]
      apply mul_le_mul_of_nonneg_right _ (zp_pos _).le
      exact_mod_cast this
    linarith
  · unfold rnd
    rw [heq]
    apply mul_le_mul_of_nonneg_right _ (zp_pos _).le
    have := roundEven_mono (x := x / 2 ^ ulpExp f y) (y := y / 2 ^ ulpExp f y)
      (div_le_div_of_nonneg_right h (zp_pos _).le)
    exact_mod_cast this

theorem rnd_mono {f : Fmt} (hp : 1 ≤ f.p) {x y : ℚ} (h : x ≤ y) : rnd f x ≤ rnd f y := by
  rcases lt_trichotomy x 0 with hx | hx | hx
  · rcases lt_or_ge y 0 with hy | hy
    · have := rnd_mono_pos (f := f) hp (x := -y) (y := -x) (by linarith) (by linarith)
      rw [rnd_neg, rnd_neg] at this
      linarith
    · have h1 := rnd_nonneg f hy
      have h2 := rnd_nonneg f (x := -x) (by linarith)
      rw [rnd_neg] at h2
      linarith
  · subst hx
    rw [rnd_zero]
    exact rnd_nonneg f h
  · exact rnd_mono_pos hp hx h

/-- Rounding error is at most half a unit in the last place. -/
theorem rnd_err (f : Fmt) (x : ℚ) : |rnd f x - x| ≤ 2 ^ (ulpExp f x - 1) := by
  have h := roundEven_spec (x / 2 ^ ulpExp f x)
  have hp := zp_pos (ulpExp f x)
  have e : rnd f x - x = ((roundEven (x / 2 ^ ulpExp f x) : ℚ) - x / 2 ^ ulpExp f x) * 2 ^ ulpExp f x := by
    unfold rnd
    rw [sub_mul, div_mul_cancel₀ _ hp.ne']
  rw [e, abs_mul, abs_of_pos hp, zpow_sub₀ (by norm_num), zpow_one]
  have := mul_le_mul_of_nonneg_right h hp.le
  linarith

/-- Relative error in the normal range. -/
theorem rnd_rel_err {f : Fmt} {x : ℚ} (hx : (2 : ℚ) ^ (f.emin + f.p - 1) ≤ |x|) :
    |rnd f x - x| ≤ |x| * 2 ^ (-(f.p : ℤ)) := by
  have hpos : 0 < |x| := lt_of_lt_of_le (zp_pos _) hx
  have hlow := Int.zpow_log_le_self (b := 2) (r := |x|) (by norm_num) hpos
  push_cast at hlow
  have hl : f.emin + f.p - 1 ≤ Int.log 2 |x| := by
    have h2 := Int.lt_zpow_succ_log_self (b := 2) (by norm_num) |x|
    push_cast at h2
    have := lt_of_le_of_lt hx h2
    have := (zpow_lt_zpow_iff_right₀ (by norm_num : (1 : ℚ) < 2)).mp this
    omega
  have hu : ulpExp f x = Int.log 2 |x| + 1 - f.p := by
    unfold ulpExp; omega
  refine le_trans (rnd_err f x) ?_
  have e : ulpExp f x - 1 = Int.log 2 |x| + -(f.p : ℤ) := by omega
  rw [e, zpow_add₀ (by norm_num)]
  exact mul_le_mul_of_nonneg_right hlow (zp_pos _).le

/-- General error bound: relative part plus half the smallest positive number. -/
theorem rnd_gen_err {f : Fmt} (x : ℚ) :
    |rnd f x - x| ≤ |x| * 2 ^ (-(f.p : ℤ)) + 2 ^ (f.emin - 1) := by
  rcases le_or_gt ((2 : ℚ) ^ (f.emin + f.p - 1)) |x| with h | h
  · have := rnd_rel_err h
    have := zp_pos (f.emin - 1)
    linarith
  · by_cases hx : x = 0
    · subst hx
      rw [rnd_zero, sub_zero, abs_zero, zero_mul, zero_add]
      exact (zp_pos _).le
    · have hl : Int.log 2 |x| < f.emin + f.p - 1 := by
        rw [← Int.lt_zpow_iff_log_lt (b := 2) (by norm_num) (abs_pos.mpr hx)]
        push_cast
        exact h
      have hu : ulpExp f x = f.emin := by unfold ulpExp; omega
      have h1 := rnd_err f x
      rw [hu] at h1
      have : 0 ≤ |x| * 2 ^ (-(f.p : ℤ)) := by positivity
      linarith

/-- A tiny relative excess over a representable number is rounded away. -/
theorem rnd_le_of_le_slack {f : Fmt} (hp : 1 ≤ f.p) {L y : ℚ} (hL : 0 < L) (hr : Repr f L)
    (hy : y ≤ L + L * 2 ^ (-(f.p : ℤ) - 1)) : rnd f y ≤ L := by
  rcases le_or_gt y L with h | h
  · have := rnd_mono hp h
    rwa [rnd_of_repr hp hr] at this
  · obtain ⟨m, hm⟩ := div_ulp_int hp hr _ (le_refl _)
    set e0 := ulpExp f L with he0
    have hp0 := zp_pos e0
    have hLm : L = m * 2 ^ e0 := by rw [← hm, div_mul_cancel₀ _ hp0.ne']
    have hlt := abs_lt_ulp f L
    rw [abs_of_pos hL, ← he0] at hlt
    have hm2 : m + 1 ≤ 2 ^ f.p := by
      have : (m : ℚ) < 2 ^ f.p := by
        rw [← hm, div_lt_iff₀ hp0, ← zpow_natCast, ← zpow_add₀ (by norm_num), add_comm]
        exact hlt
      have : m < 2 ^ f.p := by exact_mod_cast this
      omega
    have hslack : L * 2 ^ (-(f.p : ℤ) - 1) < 2 ^ e0 / 2 := by
      have h1 := mul_lt_mul_of_pos_right hlt (zp_pos (-(f.p : ℤ) - 1))
      rw [← zpow_add₀ (by norm_num)] at h1
      have e1 : e0 + (f.p : ℤ) + (-(f.p : ℤ) - 1) = e0 - 1 := by ring
      have e2 : (2 : ℚ) ^ (e0 - 1) = 2 ^ e0 / 2 := by rw [zpow_sub₀ (by norm_num), zpow_one]
      rw [e1, e2] at h1
      exact h1
    have hy2 : y < (m + 1 / 2) * 2 ^ e0 := by
      rw [add_mul, ← hLm]; linarith
    have hyp : 0 < y := lt_trans hL h
    have hyle : y < 2 ^ (e0 + f.p) := by
      have h1 : ((m + 1 : ℤ) : ℚ) * 2 ^ e0 ≤ 2 ^ f.p * 2 ^ e0 := by
        apply mul_le_mul_of_nonneg_right _ hp0.le
        exact_mod_cast hm2
      rw [add_comm, zpow_add₀ (by norm_num), zpow_natCast]
      push_cast at h1
      nlinarith
    have hu : ulpExp f y = e0 := by
      apply le_antisymm
      · have hlog : Int.log 2 |y| < e0 + f.p := by
          rw [← Int.lt_zpow_iff_log_lt (b := 2) (by norm_num) (abs_pos.mpr hyp.ne'), abs_of_pos hyp]
          push_cast
          exact hyle
        have := emin_le_ulpExp f L
        rw [← he0] at this
        have : ulpExp f y = max (Int.log 2 |y| + 1 - (f.p : ℤ)) f.emin := rfl
        omega
      · rw [he0]
        apply ulpExp_mono f hL.ne'
        rw [abs_of_pos hL, abs_of_pos hyp]
        exact h.le
    unfold rnd
    rw [hu]
    have : roundEven (y / 2 ^ e0) = m := by
      apply roundEven_eq_of_lt
      · rw [lt_div_iff₀ hp0]
        have : ((m : ℚ) - 1 / 2) * 2 ^ e0 = L - 2 ^ e0 / 2 := by rw [hLm]; ring
        rw [this]; linarith
      · rw [div_lt_iff₀ hp0]; exact hy2
    rw [this, ← hLm]

/-- A tiny relative deficit below a representable number is rounded away. -/
theorem le_rnd_of_slack_le {f : Fmt} (hp : 1 ≤ f.p) {L y : ℚ} (hL : 0 < L) (hr : Repr f L)
    (hy : L - L * 2 ^ (-(f.p : ℤ) - 2) ≤ y) : L ≤ rnd f y := by
  rcases le_or_gt L y with h | h
  · have := rnd_mono hp h
    rwa [rnd_of_repr hp hr] at this
  · have hsm : (2 : ℚ) ^ (-(f.p : ℤ) - 2) ≤ 1 / 4 := by
      have : (1 / 4 : ℚ) = 2 ^ (-2 : ℤ) := by norm_num
      rw [this]
      apply zpow_le_zpow_right₀ (by norm_num)
      omega
    have hyp : 0 < y := by nlinarith
    set e0 := ulpExp f y with he0
    have hp0 := zp_pos e0
    have hule : e0 ≤ ulpExp f L := by
      rw [he0]
      apply ulpExp_mono f hyp.ne'
      rw [abs_of_pos hL, abs_of_pos hyp]
      exact h.le
    obtain ⟨m, hm⟩ := div_ulp_int hp hr _ hule
    have hLm : L = m * 2 ^ e0 := by rw [← hm, div_mul_cancel₀ _ hp0.ne']
    have hlt := abs_lt_ulp f y
    rw [abs_of_pos hyp, ← he0] at hlt
    have hL2 : L < 2 * 2 ^ (e0 + f.p) := by nlinarith
    have hslack : L * 2 ^ (-(f.p : ℤ) - 2) < 2 ^ e0 / 2 := by
      have h1 := mul_lt_mul_of_pos_right hL2 (zp_pos (-(f.p : ℤ) - 2))
      rw [mul_assoc, ← zpow_add₀ (by norm_num)] at h1
      have e1 : e0 + (f.p : ℤ) + (-(f.p : ℤ) - 2) = e0 - 2 := by ring
      have e2 : (2 : ℚ) ^ (e0 - 2) = 2 ^ e0 / 4 := by rw [zpow_sub₀ (by norm_num)]; norm_num
      rw [e1, e2] at h1
      linarith
    unfold rnd
    rw [← he0]
    have : roundEven (y / 2 ^ e0) = m := by
      apply roundEven_eq_of_lt
      · rw [lt_div_iff₀ hp0]
        have : ((m : ℚ) - 1 / 2) * 2 ^ e0 = L - 2 ^ e0 / 2 := by rw [hLm]; ring
        rw [this]; linarith
      · rw [div_lt_iff₀ hp0, add_mul, ← hLm]; linarith
    rw [this, ← hLm]

end Dysco.Fl
