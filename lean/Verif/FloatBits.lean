import Verif.FlLemmas

/-!
# Storage of floats

The codecs store their metadata by writing `float` values into a byte buffer through a pointer cast
(threadeddyscocolumn.cc:283 and 94). This is the IEEE-754 binary32 interchange format.
-/

namespace Dysco.Fl

/-- The value of a 32-bit pattern. IEEE 754; not in the code. -/
def ofBits (b : ℕ) : Fl :=
  if b / 2 ^ 23 % 256 = 255 then
    if b % 2 ^ 23 = 0 then .inf (decide (2 ^ 31 ≤ b)) else .nan
  else .fin ((if 2 ^ 31 ≤ b then -1 else 1) *
    (if b / 2 ^ 23 % 256 = 0 then ((b % 2 ^ 23 : ℕ) : ℚ) * 2 ^ (-149 : ℤ)
      else ((2 ^ 23 + b % 2 ^ 23 : ℕ) : ℚ) * 2 ^ (((b / 2 ^ 23 % 256 : ℕ) : ℤ) - 150)))

/-- Number of units in the last place. IEEE 754; not in the code. -/
def mantissa (q : ℚ) : ℕ := ⌊|q| / 2 ^ ulpExp binary32 q⌋.toNat

/-- The bit pattern of a value. IEEE 754; not in the code. -/
def toBits : Fl → ℕ
  | .nan => 0x7fc00000
  | .inf neg => (if neg then 2 ^ 31 else 0) + 0x7f800000
  | .fin q => if q = 0 then 0 else
      (if q < 0 then 2 ^ 31 else 0) + ((ulpExp binary32 q + 149).toNat * 2 ^ 23 + mantissa q)

theorem toBits_fin {q : ℚ} (h : q ≠ 0) : toBits (.fin q) =
    (if q < 0 then 2 ^ 31 else 0) + ((ulpExp binary32 q + 149).toNat * 2 ^ 23 + mantissa q) := if_neg h

/-- A value that a `float` can have. -/
def IsFloat (x : Fl) : Prop := ∀ q, x = .fin q → Repr binary32 q ∧ |q| < 2 ^ (128 : ℤ)

theorem isFloat_cast (x : Fl) : IsFloat (cast r32 x) := by
  intro q h
  cases x with
  | fin a =>
    simp only [cast, r32, round] at h
    split at h
    · rename_i hlt
      injection h with h
      subst h
      exact ⟨repr_rnd _ a, hlt⟩
    · exact absurd h (by simp)
  | inf n => exact absurd h (by simp [cast])
  | nan => exact absurd h (by simp [cast])

/-- The finite floats are exact multiples of their unit in the last place, with a 24-bit multiplier. -/
theorem mantissa_spec {q : ℚ} (hr : Repr binary32 q) (h0 : q ≠ 0) (hq : |q| < 2 ^ (128 : ℤ)) :
    |q| = mantissa q * 2 ^ ulpExp binary32 q ∧ mantissa q < 2 ^ 24 ∧
      -149 ≤ ulpExp binary32 q ∧ ulpExp binary32 q ≤ 104 ∧
      (ulpExp binary32 q ≠ -149 → 2 ^ 23 ≤ mantissa q) := by
  have hpos : 0 < |q| := abs_pos.mpr h0
  have two : (1 : ℚ) < 2 := by norm_num
  have hlog1 : (2 : ℚ) ^ Int.log 2 |q| ≤ |q| := by
    have := Int.zpow_log_le_self (b := 2) (by norm_num) hpos
    exact_mod_cast this
  have hlog2 : |q| < (2 : ℚ) ^ (Int.log 2 |q| + 1) := by
    have := Int.lt_zpow_succ_log_self (b := 2) (by norm_num) |q|
    exact_mod_cast this
  have hL : Int.log 2 |q| < 128 := by
    by_contra h
    exact absurd (lt_of_le_of_lt (le_trans (zpow_le_zpow_right₀ two.le (not_lt.mp h)) hlog1) hq)
      (lt_irrefl _)
  have hu : ulpExp binary32 q = max (Int.log 2 |q| + 1 - 24) (-149) := rfl
  have hman : mantissa q = ⌊|q| / 2 ^ ulpExp binary32 q⌋.toNat := rfl
  generalize mantissa q = n' at *
  generalize ulpExp binary32 q = u at *
  generalize Int.log 2 |q| = l at *
  have hupos : (0 : ℚ) < 2 ^ u := zp_pos _
  obtain ⟨m, k, hk, hm, e⟩ := hr
  have hk : -149 ≤ k := hk
  have hm : |m| ≤ 2 ^ 24 := hm
  have hint : ∃ n : ℕ, |q| = n * 2 ^ u := by
    have hq' : |q| = (m.natAbs : ℚ) * 2 ^ k := by
      rw [e, abs_mul, abs_of_pos (zp_pos k), ← Int.cast_abs, Int.abs_eq_natAbs]
      rfl
    by_cases hku : u ≤ k
    · refine ⟨m.natAbs * 2 ^ (k - u).toNat, ?_⟩
      rw [hq']
      push_cast
      rw [mul_assoc, ← zpow_natCast (2 : ℚ), ← zpow_add₀ (by norm_num)]
      congr 2
      omega
    · have hul : u = l - 23 := by omega
      have h1 : (2 : ℚ) ^ (k + 24) ≤ |q| := le_trans (zpow_le_zpow_right₀ two.le (by omega)) hlog1
      have h2 : |q| ≤ 2 ^ (k + 24) := by
        rw [hq', zpow_add₀ (by norm_num), mul_comm]
        apply mul_le_mul_of_nonneg_left _ (zp_pos k).le
        have : m.natAbs ≤ 2 ^ 24 := by
          rw [Int.abs_eq_natAbs] at hm
          omega
        exact_mod_cast this
      have h3 := le_antisymm h2 h1
      have h4 : l = k + 24 := by
        rw [h3] at hlog1 hlog2
        have a := (zpow_le_zpow_iff_right₀ two).mp hlog1
        have b := (zpow_lt_zpow_iff_right₀ two).mp hlog2
        omega
      refine ⟨2 ^ 23, ?_⟩
      rw [h3, hul, h4]
      rw [Nat.cast_pow, Nat.cast_ofNat, ← zpow_natCast (2 : ℚ) 23, ← zpow_add₀ (by norm_num)]
      congr 1
      push_cast
      ring
  obtain ⟨n, hn⟩ := hint
  have hn' : n' = n := by
    rw [hman, hn, mul_div_assoc, div_self hupos.ne', mul_one]
    simp
  subst hn'
  refine ⟨hn, ?_, by omega, by omega, ?_⟩
  · have h1 : (n' : ℚ) * 2 ^ u < 2 ^ (24 : ℤ) * 2 ^ u := by
      rw [← hn, ← zpow_add₀ (by norm_num)]
      exact lt_of_lt_of_le hlog2 (zpow_le_zpow_right₀ two.le (by omega))
    have h2 := lt_of_mul_lt_mul_right h1 hupos.le
    have h3 : (n' : ℚ) < ((2 ^ 24 : ℕ) : ℚ) := lt_of_lt_of_eq h2 (by norm_num)
    exact_mod_cast h3
  · intro hne
    have h1 : (2 : ℚ) ^ (23 : ℤ) * 2 ^ u ≤ (n' : ℚ) * 2 ^ u := by
      rw [← hn, ← zpow_add₀ (by norm_num)]
      exact le_trans (zpow_le_zpow_right₀ two.le (by omega)) hlog1
    have h2 := le_of_mul_le_mul_right h1 hupos
    have h3 : ((2 ^ 23 : ℕ) : ℚ) ≤ (n' : ℚ) := le_trans (le_of_eq (by norm_num)) h2
    exact_mod_cast h3

theorem toBits_lt {x : Fl} (h : IsFloat x) : toBits x < 2 ^ 32 := by
  cases x with
  | nan => norm_num [toBits]
  | inf n => cases n <;> norm_num [toBits]
  | fin q =>
    obtain ⟨hr, hq⟩ := h q rfl
    by_cases h0 : q = 0
    · subst h0
      simp [toBits]
    · obtain ⟨_, h2, h3, h4, _⟩ := mantissa_spec hr h0 hq
      rw [toBits_fin h0]
      have : (if q < 0 then 2 ^ 31 else 0 : ℕ) ≤ 2 ^ 31 := by split <;> norm_num
      have : (ulpExp binary32 q + 149).toNat ≤ 253 := by omega
      omega

/-- Storing a float and loading it again gives the same value. -/
theorem ofBits_toBits {x : Fl} (h : IsFloat x) : ofBits (toBits x) = x := by
  cases x with
  | nan => norm_num [toBits, ofBits]
  | inf n => cases n <;> norm_num [toBits, ofBits]
  | fin q =>
    obtain ⟨hr, hq⟩ := h q rfl
    by_cases h0 : q = 0
    · subst h0
      norm_num [toBits, ofBits]
    · obtain ⟨h1, h2, h3, h4, h5⟩ := mantissa_spec hr h0 hq
      have hs : (2 ^ 31 ≤ toBits (.fin q)) ↔ q < 0 := by
        rw [toBits_fin h0]
        by_cases hn : q < 0
        · rw [if_pos hn]
          exact ⟨fun _ => hn, fun _ => by omega⟩
        · rw [if_neg hn]
          have : (ulpExp binary32 q + 149).toNat ≤ 253 := by omega
          exact ⟨fun h => by omega, fun h => absurd h hn⟩
      have hval : (if q < 0 then -1 else 1 : ℚ) * (mantissa q * 2 ^ ulpExp binary32 q) = q := by
        rw [← h1]
        by_cases hn : q < 0
        · rw [if_pos hn, abs_of_neg hn]; ring
        · rw [if_neg hn, abs_of_nonneg (not_lt.mp hn)]; ring
      obtain ⟨k, hk⟩ : ∃ k : ℕ, (k : ℤ) = ulpExp binary32 q + 149 := ⟨(ulpExp binary32 q + 149).toNat, by omega⟩
      have hu : ulpExp binary32 q = (k : ℤ) - 149 := by omega
      have hk2 : (ulpExp binary32 q + 149).toNat = k := by omega
      have hb : ∃ s, (s = 0 ∨ s = 2 ^ 31) ∧ toBits (.fin q) = s + (k * 2 ^ 23 + mantissa q) := by
        refine ⟨if q < 0 then 2 ^ 31 else 0, ?_, by rw [toBits_fin h0, hk2]⟩
        split
        · exact Or.inr rfl
        · exact Or.inl rfl
      obtain ⟨s, hs2, hb⟩ := hb
      unfold ofBits
      rw [if_congr hs (Eq.refl (-1 : ℚ)) (Eq.refl 1)]
      by_cases hsub : mantissa q < 2 ^ 23
      · have hk0 : k = 0 := by
          by_contra hk0
          have := h5 (by omega)
          omega
        have e1 : toBits (.fin q) / 2 ^ 23 % 256 = 0 := by omega
        have e2 : toBits (.fin q) % 2 ^ 23 = mantissa q := by omega
        have : (-149 : ℤ) = ulpExp binary32 q := by omega
        rw [e1, e2, if_neg (by norm_num), if_pos rfl, this, hval]
      · have e1 : toBits (.fin q) / 2 ^ 23 % 256 = k + 1 := by omega
        have e2 : 2 ^ 23 + toBits (.fin q) % 2 ^ 23 = mantissa q := by omega
        rw [e1, e2, if_neg (show ¬ k + 1 = 255 by omega), if_neg (Nat.succ_ne_zero k)]
        have : ((k + 1 : ℕ) : ℤ) - 150 = ulpExp binary32 q := by push_cast; omega
        rw [this, hval]

end Dysco.Fl
