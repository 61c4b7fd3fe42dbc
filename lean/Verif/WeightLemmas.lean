import Verif.WeightModel
import Verif.LoopLemmas
import Verif.FlLemmas

/-! # Helper lemmas for weights: floating point error analysis and loops -/

namespace Dysco

namespace Fl

theorem r32_fin {x : ℚ} (h : |rnd binary32 x| < 2 ^ (128 : ℤ)) : r32 x = .fin (rnd binary32 x) :=
  if_pos h

theorem r64_fin {x : ℚ} (h : |rnd binary64 x| < 2 ^ (1024 : ℤ)) : r64 x = .fin (rnd binary64 x) :=
  if_pos h

theorem r32_zero : r32 0 = .fin 0 := by
  rw [r32_fin] <;> rw [rnd_zero]
  rw [abs_zero]; positivity

theorem r64_zero : r64 0 = .fin 0 := by
  rw [r64_fin] <;> rw [rnd_zero]
  rw [abs_zero]; positivity

/-- Double rounding in the normal range. -/
theorem r64_normal {x : ℚ} (h1 : (2 : ℚ) ^ (-1022 : ℤ) ≤ |x|) (h2 : |x| ≤ 2 ^ (1000 : ℤ)) :
    r64 x = .fin (rnd binary64 x) ∧ |rnd binary64 x - x| ≤ |x| * 2 ^ (-53 : ℤ) := by
  have he : |rnd binary64 x - x| ≤ |x| * 2 ^ (-53 : ℤ) := rnd_rel_err (f := binary64) h1
  refine ⟨r64_fin ?_, he⟩
  have h3 : |rnd binary64 x| ≤ |x| + |rnd binary64 x - x| := by
    have := abs_add_le x (rnd binary64 x - x)
    rwa [add_sub_cancel] at this
  have h4 : (2 : ℚ) ^ (-53 : ℤ) ≤ 1 := by norm_num
  have h5 : (2 : ℚ) ^ (1000 : ℤ) * 2 < 2 ^ (1024 : ℤ) := by
    have : (2 : ℚ) ^ (1024 : ℤ) = 2 ^ (1000 : ℤ) * 2 ^ (24 : ℤ) := by
      rw [← zpow_add₀ (by norm_num)]; norm_num
    rw [this]
    apply mul_lt_mul_of_pos_left _ (by positivity)
    norm_num
  have h6 : |x| * 2 ^ (-53 : ℤ) ≤ |x| := by nlinarith [abs_nonneg x]
  refine lt_of_le_of_lt ?_ h5
  refine le_trans h3 ?_
  rw [mul_two]
  exact add_le_add h2 (le_trans he (le_trans h6 h2))

/-- Positive floats are at least the smallest denormal. -/
theorem repr32_ge {q : ℚ} (h : Repr binary32 q) (h0 : 0 < q) : (2 : ℚ) ^ (-149 : ℤ) ≤ q := by
  obtain ⟨m, k, hk, _, hq⟩ := h
  have hk' : (-149 : ℤ) ≤ k := hk
  have hm : 0 < m := by
    rw [hq] at h0
    have := pos_of_mul_pos_left h0 (zp_pos k).le
    exact_mod_cast this
  have h1 : (1 : ℚ) ≤ m := by exact_mod_cast hm
  rw [hq]
  have h2 : (2 : ℚ) ^ (-149 : ℤ) ≤ 2 ^ k := zpow_le_zpow_right₀ (by norm_num) hk'
  nlinarith [zp_pos k]

/-- Natural numbers up to `2^24` are floats. -/
theorem repr32_nat {n : Nat} (h : n ≤ 2 ^ 24) : Repr binary32 (n : ℚ) := by
  refine ⟨n, 0, by decide, ?_, by simp⟩
  rw [abs_of_nonneg (by positivity)]
  exact_mod_cast h

/-- `float(a * (b / c))` computed with two double operations, when the exact result does not exceed
the float `L`: the result does not exceed `L`, is accurate, and is exact at `L` and at zero. -/
theorem prod_core {a b c L : ℚ} (ha : a = 0 ∨ (2 : ℚ) ^ (-300 : ℤ) ≤ a) (ha2 : a ≤ 2 ^ (300 : ℤ))
    (hc0 : 0 < c) (hbc1 : (2 : ℚ) ^ (-300 : ℤ) ≤ b / c)
    (hbc2 : b / c ≤ 2 ^ (300 : ℤ)) (hL : 0 < L) (hLr : Repr binary32 L) (hL2 : L < 2 ^ (128 : ℤ))
    (hX : a * (b / c) ≤ L) :
    ∃ Y, Fl.cast r32 (Fl.mul r64 (.fin a) (Fl.div r64 (.fin b) (.fin c))) = .fin Y ∧ 0 ≤ Y ∧ Y ≤ L ∧
      |Y - a * (b / c)| ≤ L * (1 / 16000000) + 2 ^ (-150 : ℤ) ∧ (a * (b / c) = L → Y = L) ∧
      (a = 0 → Y = 0) := by
  have hbcpos : 0 < b / c := lt_of_lt_of_le (zp_pos _) hbc1
  have hS := r64_normal (x := b / c)
    (by
      rw [abs_of_pos hbcpos]
      exact le_trans (zpow_le_zpow_right₀ (by norm_num) (by norm_num)) hbc1)
    (by
      rw [abs_of_pos hbcpos]
      exact le_trans hbc2 (zpow_le_zpow_right₀ (by norm_num) (by norm_num)))
  obtain ⟨eS, hS2⟩ := hS
  rw [abs_of_pos hbcpos] at hS2
  set S := rnd binary64 (b / c) with hSdef
  have eps : (2 : ℚ) ^ (-53 : ℤ) = 1 / 9007199254740992 := by norm_num
  rw [eps] at hS2
  have hdiv : Fl.div r64 (.fin b) (.fin c) = .fin S := by
    simp only [Fl.div, if_neg hc0.ne', eS]
  rw [hdiv]
  rcases ha with ha0 | ha1
  · subst ha0
    refine ⟨0, ?_, le_refl _, hL.le, ?_, ?_, fun _ => rfl⟩
    · simp only [Fl.mul, zero_mul, r64_zero, Fl.cast, r32_zero]
    · rw [zero_mul, sub_zero, abs_zero]
      positivity
    · rw [zero_mul]
      exact fun h => h
  · have hapos : 0 < a := lt_of_lt_of_le (zp_pos _) ha1
    have hS3 := abs_le.mp hS2
    have hSlo : b / c * (1 / 2) ≤ S := by nlinarith
    have hShi : S ≤ b / c * 2 := by nlinarith
    have hSpos : 0 < S := by nlinarith
    have haS : 0 < a * S := mul_pos hapos hSpos
    have hP := r64_normal (x := a * S)
      (by
        rw [abs_of_pos haS]
        have h1 : (2 : ℚ) ^ (-300 : ℤ) * (2 ^ (-300 : ℤ) * (1 / 2)) ≤ a * S :=
          mul_le_mul ha1 (le_trans (mul_le_mul_of_nonneg_right hbc1 (by norm_num)) hSlo)
            (by positivity) hapos.le
        refine le_trans ?_ h1
        have e : (2 : ℚ) ^ (-300 : ℤ) * (2 ^ (-300 : ℤ) * (1 / 2)) = 2 ^ (-601 : ℤ) := by
          rw [show (1 / 2 : ℚ) = 2 ^ (-1 : ℤ) by norm_num, ← zpow_add₀ (by norm_num),
            ← zpow_add₀ (by norm_num)]
          norm_num
        rw [e]
        exact zpow_le_zpow_right₀ (by norm_num) (by norm_num))
      (by
        rw [abs_of_pos haS]
        have h1 : a * S ≤ 2 ^ (300 : ℤ) * (2 ^ (300 : ℤ) * 2) :=
          mul_le_mul ha2 (le_trans hShi (mul_le_mul_of_nonneg_right hbc2 (by norm_num)))
            hSpos.le (by positivity)
        refine le_trans h1 ?_
        have e : (2 : ℚ) ^ (300 : ℤ) * (2 ^ (300 : ℤ) * 2) = 2 ^ (601 : ℤ) := by
          rw [show (2 ^ (300 : ℤ) * 2 : ℚ) = 2 ^ (301 : ℤ) by
            rw [show (301 : ℤ) = 300 + 1 by norm_num, zpow_add₀ (by norm_num), zpow_one],
            ← zpow_add₀ (by norm_num)]
          norm_num
        rw [e]
        exact zpow_le_zpow_right₀ (by norm_num) (by norm_num))
    obtain ⟨eP, hP2⟩ := hP
    rw [abs_of_pos haS, eps] at hP2
    set P := rnd binary64 (a * S) with hPdef
    set X := a * (b / c) with hXdef
    have hXpos : 0 < X := mul_pos hapos hbcpos
    have haSX : |a * S - X| ≤ X * (1 / 9007199254740992) := by
      have e : a * S - X = a * (S - b / c) := by rw [hXdef]; ring
      rw [e, abs_mul, abs_of_pos hapos, hXdef, mul_assoc]
      exact mul_le_mul_of_nonneg_left hS2 hapos.le
    have haSX' := abs_le.mp haSX
    have hP3 := abs_le.mp hP2
    have e51 : X * (1 / 2251799813685248) = X * (1 / 9007199254740992) * 4 := by ring
    have hPX : |P - X| ≤ X * (1 / 2251799813685248) := by
      rw [abs_le]
      constructor <;> nlinarith
    have hPX' := abs_le.mp hPX
    have hPpos : 0 ≤ P := by nlinarith
    have hYle : rnd binary32 P ≤ L := by
      apply rnd_le_of_le_slack (by decide) hL hLr
      have e25 : (2 : ℚ) ^ (-(binary32.p : ℤ) - 1) = 1 / 33554432 := by norm_num [binary32]
      rw [e25]
      nlinarith
    have hY0 : 0 ≤ rnd binary32 P := rnd_nonneg binary32 hPpos
    have hfin : r32 P = .fin (rnd binary32 P) := by
      apply r32_fin
      rw [abs_of_nonneg hY0]
      linarith
    refine ⟨rnd binary32 P, ?_, hY0, hYle, ?_, ?_, ?_⟩
    · simp only [Fl.mul, eP, Fl.cast, hfin]
    · have hg := rnd_gen_err (f := binary32) P
      have e24 : (2 : ℚ) ^ (-(binary32.p : ℤ)) = 1 / 16777216 := by norm_num [binary32]
      have e150 : binary32.emin - 1 = -150 := by norm_num [binary32]
      rw [e24, e150, abs_of_nonneg hPpos] at hg
      generalize (2 : ℚ) ^ (-150 : ℤ) = t at hg ⊢
      have hg' := abs_le.mp hg
      rw [abs_le]
      constructor <;> nlinarith
    · intro hXL
      apply le_antisymm hYle
      apply le_rnd_of_slack_le (by decide) hL hLr
      have e26 : (2 : ℚ) ^ (-(binary32.p : ℤ) - 2) = 1 / 67108864 := by norm_num [binary32]
      rw [e26]
      nlinarith
    · intro h
      linarith

end Fl

namespace Weight

theorem toUnsigned_roundf {Y : ℚ} {k : Nat} (h0 : 0 ≤ Y) (hk : Y ≤ k) (hk2 : k < 2 ^ 32) :
    ∃ s : Nat, toUnsigned (roundf (.fin Y)) = some s ∧ s ≤ k ∧ |(s : ℚ) - Y| ≤ 1 / 2 ∧
      (Y = k → s = k) ∧ (Y = 0 → s = 0) := by
  have hf0 : 0 ≤ ⌊Y + 1 / 2⌋ := by
    rw [Int.le_floor]; push_cast; linarith
  have hfk : ⌊Y + 1 / 2⌋ ≤ (k : ℤ) := by
    have : ⌊Y + 1 / 2⌋ < (k : ℤ) + 1 := by
      rw [Int.floor_lt]; push_cast; linarith
    omega
  obtain ⟨s, hs⟩ := Int.eq_ofNat_of_zero_le hf0
  refine ⟨s, ?_, by omega, ?_, ?_, ?_⟩
  · simp only [roundf, if_pos h0, toUnsigned]
    rw [if_pos]
    · rw [Int.floor_intCast, hs]
      rfl
    · constructor
      · exact_mod_cast hf0
      · have : (⌊Y + 1 / 2⌋ : ℚ) ≤ k := by exact_mod_cast hfk
        have h3 : (k : ℚ) < 2 ^ 32 := by exact_mod_cast hk2
        linarith
  · have e : (s : ℚ) = ((⌊Y + 1 / 2⌋ : ℤ) : ℚ) := by rw [hs]; push_cast; rfl
    have h1 := Int.floor_le (Y + 1 / 2)
    have h2 := Int.lt_floor_add_one (Y + 1 / 2)
    rw [e, abs_le]
    constructor <;> linarith
  · intro hY
    have : ⌊Y + 1 / 2⌋ = (k : ℤ) := by
      rw [Int.floor_eq_iff, hY]
      push_cast
      constructor <;> linarith
    omega
  · intro hY
    have : ⌊Y + 1 / 2⌋ = 0 := by
      rw [Int.floor_eq_iff, hY]
      norm_num
    omega

/-- One weight through encoding and decoding in float/double arithmetic. -/
theorem sample_core (q : Nat) (hq : 2 ≤ q) (hq2 : q ≤ 2 ^ 16) {w M : ℚ} (hw : 0 ≤ w) (hwM : w ≤ M)
    (hwr : Fl.Repr Fl.binary32 w) (hM : 0 < M) (hMr : Fl.Repr Fl.binary32 M)
    (hM2 : M < 2 ^ (128 : ℤ)) :
    ∃ s y, encodeSample Fl.r32 Fl.r64 q (.fin M) (.fin w) = some s ∧ s < q ∧
      decodeSample Fl.r32 Fl.r64 q (.fin M) s = .fin y ∧ 0 ≤ y ∧ y ≤ M ∧
      |y - w| ≤ M / (2 * (q - 1)) + M * 2 ^ (-22 : ℤ) + 2 ^ (-149 : ℤ) ∧
      (w = M → y = w) ∧ (w = 0 → y = 0) := by
  set k := q - 1 with hk
  have hkpos : 0 < k := by omega
  have hkq : (0 : ℚ) < k := by exact_mod_cast hkpos
  have hk1 : (1 : ℚ) ≤ k := by exact_mod_cast hkpos
  have hk16 : (k : ℚ) ≤ 2 ^ (16 : ℤ) := by
    have : k ≤ 2 ^ 16 := by omega
    exact_mod_cast this
  have hqk : (q : ℚ) - 1 = k := by
    rw [hk, Nat.cast_sub (by omega)]; norm_num
  have hMge := Fl.repr32_ge hMr hM
  have z : ∀ {i j : ℤ}, i ≤ j → (2 : ℚ) ^ i ≤ 2 ^ j := fun h => zpow_le_zpow_right₀ (by norm_num) h
  have hkr : Fl.Repr Fl.binary32 (k : ℚ) := Fl.repr32_nat (by omega)
  -- encoding
  obtain ⟨Y, eY, y0, yk, yerr, ymax, yzero⟩ := Fl.prod_core (a := w) (b := k) (c := M) (L := k)
    (by
      rcases hw.eq_or_lt with h | h
      · exact Or.inl h.symm
      · exact Or.inr (le_trans (z (by norm_num)) (Fl.repr32_ge hwr h)))
    (le_trans hwM (le_trans hM2.le (z (by norm_num)))) hM
    (by
      rw [le_div_iff₀ hM]
      have h1 : (2 : ℚ) ^ (-300 : ℤ) * M ≤ 2 ^ (-300 : ℤ) * 2 ^ (128 : ℤ) :=
        mul_le_mul_of_nonneg_left hM2.le (by positivity)
      rw [← zpow_add₀ (by norm_num)] at h1
      have h2 : (2 : ℚ) ^ (-300 + 128 : ℤ) ≤ 2 ^ (0 : ℤ) := z (by norm_num)
      rw [zpow_zero] at h2
      linarith)
    (by
      rw [div_le_iff₀ hM]
      have h1 : (2 : ℚ) ^ (300 : ℤ) * 2 ^ (-149 : ℤ) ≤ 2 ^ (300 : ℤ) * M :=
        mul_le_mul_of_nonneg_left hMge (by positivity)
      rw [← zpow_add₀ (by norm_num)] at h1
      have h2 : (2 : ℚ) ^ (16 : ℤ) ≤ 2 ^ (300 + -149 : ℤ) := z (by norm_num)
      linarith)
    hkq hkr (lt_of_le_of_lt hk16 (by norm_num))
    (by
      rw [← mul_div_assoc, div_le_iff₀ hM]
      nlinarith)
  obtain ⟨s, es, sk, serr, smax, szero⟩ := toUnsigned_roundf y0 yk (by omega : k < 2 ^ 32)
  -- decoding
  have hsk : (s : ℚ) ≤ k := by exact_mod_cast sk
  obtain ⟨U, eU, u0, uM, uerr, umax, uzero⟩ := Fl.prod_core (a := s) (b := M) (c := k) (L := M)
    (by
      rcases Nat.eq_zero_or_pos s with h | h
      · left; rw [h]; norm_num
      · right
        have : (1 : ℚ) ≤ s := by exact_mod_cast h
        have h2 : (2 : ℚ) ^ (-300 : ℤ) ≤ 2 ^ (0 : ℤ) := z (by norm_num)
        rw [zpow_zero] at h2
        linarith)
    (le_trans hsk (le_trans hk16 (z (by norm_num)))) hkq
    (by
      rw [le_div_iff₀ hkq]
      have h1 : (2 : ℚ) ^ (-300 : ℤ) * k ≤ 2 ^ (-300 : ℤ) * 2 ^ (16 : ℤ) :=
        mul_le_mul_of_nonneg_left hk16 (by positivity)
      rw [← zpow_add₀ (by norm_num)] at h1
      have h2 : (2 : ℚ) ^ (-300 + 16 : ℤ) ≤ 2 ^ (-149 : ℤ) := z (by norm_num)
      linarith)
    (by
      rw [div_le_iff₀ hkq]
      have h2 : (2 : ℚ) ^ (128 : ℤ) ≤ 2 ^ (300 : ℤ) := z (by norm_num)
      refine le_trans (le_trans hM2.le h2) ?_
      exact le_mul_of_one_le_right (by positivity) hk1)
    hM hMr hM2
    (by
      rw [← mul_div_assoc, div_le_iff₀ hkq]
      nlinarith)
  refine ⟨s, U, ?_, by omega, eU, u0, uM, ?_, ?_, ?_⟩
  · unfold encodeSample
    rw [eY, es]
  · -- error: combine the three errors
    rw [hqk]
    have e1 : U - w = (U - s * (M / k)) + (s - Y) * (M / k) + (Y - w * (k / M)) * (M / k) := by
      have : w * (k / M) * (M / k) = w := by field_simp
      rw [sub_mul (Y : ℚ), this]
      ring
    have hMk : 0 < M / k := by positivity
    have hMkM : M / k ≤ M := by
      rw [div_le_iff₀ hkq]; nlinarith
    have a1 : |(s - Y) * (M / k)| ≤ 1 / 2 * (M / k) := by
      rw [abs_mul, abs_of_pos hMk]
      exact mul_le_mul_of_nonneg_right serr hMk.le
    have t1 := abs_add_le (U - s * (M / k) + (s - Y) * (M / k)) ((Y - w * (k / M)) * (M / k))
    have t2 := abs_add_le (U - s * (M / k)) ((s - Y) * (M / k))
    rw [← e1] at t1
    have e22 : (2 : ℚ) ^ (-22 : ℤ) = 1 / 4194304 := by norm_num
    have e149 : (2 : ℚ) ^ (-149 : ℤ) = 2 * 2 ^ (-150 : ℤ) := by
      rw [show (-149 : ℤ) = 1 + -150 by norm_num, zpow_add₀ (by norm_num), zpow_one]
    have hsmall : (2 : ℚ) ^ (-150 : ℤ) ≤ 2 ^ (-30 : ℤ) := z (by norm_num)
    have e30 : (2 : ℚ) ^ (-30 : ℤ) = 1 / 1073741824 := by norm_num
    have hpos := Fl.zp_pos (-150)
    rw [e22, e149]
    rw [e30] at hsmall
    generalize (2 : ℚ) ^ (-150 : ℤ) = t at *
    have a2 : |(Y - w * (k / M)) * (M / k)| ≤ (k * (1 / 16000000) + t) * (M / k) := by
      rw [abs_mul, abs_of_pos hMk]
      exact mul_le_mul_of_nonneg_right yerr hMk.le
    have a3 : (k * (1 / 16000000) + t) * (M / k) = M * (1 / 16000000) + t * (M / k) := by
      rw [add_mul]
      congr 1
      field_simp
    have hk2 : 1 / 2 * (M / k) = M / (2 * k) := by field_simp
    have tiny : t * (M / k) ≤ 1 / 1073741824 * M := mul_le_mul hsmall hMkM hMk.le (by norm_num)
    linarith
  · intro h
    have : w * ((k : ℚ) / M) = k := by rw [h]; field_simp
    have := smax (ymax this)
    have h2 : (s : ℚ) * (M / k) = M := by rw [this]; field_simp
    rw [umax h2, h]
  · intro h
    exact uzero (by rw [szero (yzero h)]; norm_num)

/-- The weights of a block: channel `c`, polarisation `p` of row `r` is `W r c p`. -/
def HoldsWeights (nPol nCh : Nat) (rows : Block Fl) (W : Nat → Nat → Nat → ℚ) : Prop :=
  ∀ r, r < rows.len → (rows.get r).vis.len = nCh * nPol ∧
    ∀ c p, c < nCh → p < nPol → (rows.get r).vis.get (c * nPol + p) = .fin (W r c p)

/-- `m` is the smallest of the first `n` values. -/
def IsMin (n : Nat) (v : Nat → ℚ) (m : ℚ) : Prop := (∃ p, p < n ∧ v p = m) ∧ ∀ p, p < n → m ≤ v p

theorem minWeight_spec {nPol nCh : Nat} (hp : 1 ≤ nPol) {rows : Block Fl}
    {W : Nat → Nat → Nat → ℚ} (hW : HoldsWeights nPol nCh rows W) {r c : Nat} (hr : r < rows.len)
    (hc : c < nCh) {m : ℚ} (hm : IsMin nPol (W r c) m) :
    minWeight nPol (rows.get r).vis c = some (.fin m) := by
  obtain ⟨hlen, hget⟩ := hW r hr
  have hlt : ∀ p, p < nPol → c * nPol + p < (rows.get r).vis.len := by
    intro p hp'
    rw [hlen]
    exact flat_lt hc hp'
  have h0 := Buf.rd_some (hlt 0 (by omega))
  rw [Nat.add_zero] at h0
  have g0 := hget c 0 hc (by omega)
  rw [Nat.add_zero] at g0
  rw [g0] at h0
  unfold minWeight
  rw [if_neg (by omega), h0, Option.bind_some]
  obtain ⟨t, e, x, ht, h1, h2⟩ := forRange_inv (nPol - 1)
    (fun k w => ((rows.get r).vis.rd (c * nPol + (k + 1))).map fun v => if Fl.lt v w then v else w)
    (.fin (W r c 0))
    (fun i w => ∃ x, w = .fin x ∧ (∃ p, p < i + 1 ∧ W r c p = x) ∧ ∀ p, p < i + 1 → x ≤ W r c p)
    ⟨W r c 0, rfl, ⟨0, by omega, rfl⟩, fun p h => by
      have : p = 0 := by omega
      rw [this]⟩
    (by
      rintro i w hi ⟨x, rfl, ⟨p0, hp0, hx⟩, hmin⟩
      have hrd := Buf.rd_some (hlt (i + 1) (by omega))
      rw [hget c (i + 1) hc (by omega)] at hrd
      simp only [hrd, Option.map_some]
      by_cases hlt' : W r c (i + 1) < x
      · refine ⟨.fin (W r c (i + 1)), by simp [Fl.lt, hlt'], W r c (i + 1), rfl,
          ⟨i + 1, by omega, rfl⟩, ?_⟩
        intro p hp'
        rcases Nat.lt_or_eq_of_le (Nat.le_of_lt_succ hp') with h | h
        · exact le_trans hlt'.le (hmin p h)
        · rw [h]
      · refine ⟨.fin x, by simp [Fl.lt, hlt'], x, rfl, ⟨p0, by omega, hx⟩, ?_⟩
        intro p hp'
        rcases Nat.lt_or_eq_of_le (Nat.le_of_lt_succ hp') with h | h
        · exact hmin p h
        · rw [h]; exact not_lt.mp hlt')
  rw [e, ht]
  congr 2
  obtain ⟨p1, hp1, e1⟩ := h1
  obtain ⟨p2, hp2, e2⟩ := hm.1
  have a1 := hm.2 p1 (by omega)
  have a2 := h2 p2 (by omega)
  rw [e1] at a1
  rw [e2] at a2
  exact le_antisymm a2 a1

/-- `M` is the largest sample weight, or 1 if there is no positive weight. -/
def IsBlockMax (nRows nCh : Nat) (m : Nat → Nat → ℚ) (M : ℚ) : Prop :=
  (∀ r c, r < nRows → c < nCh → m r c ≤ M) ∧
  ((0 < M ∧ ∃ r c, r < nRows ∧ c < nCh ∧ m r c = M) ∨
    (M = 1 ∧ ∀ r c, r < nRows → c < nCh → m r c ≤ 0))

theorem maxLoop_spec {nPol nCh : Nat} (hp : 1 ≤ nPol) {rows : Block Fl}
    {W : Nat → Nat → Nat → ℚ} (hW : HoldsWeights nPol nCh rows W) {m : Nat → Nat → ℚ}
    (hm : ∀ r c, r < rows.len → c < nCh → IsMin nPol (W r c) (m r c)) :
    ∃ mx M, maxLoop nPol nCh rows = some mx ∧ nonZeroMax mx = .fin M ∧
      IsBlockMax rows.len nCh m M := by
  -- invariant: `x` is the maximum of 0 and the samples seen so far
  obtain ⟨mx, e, x, hx, h1, h2⟩ := forRange_inv rows.len
    (fun r mx => (rows.rd r).bind fun row =>
      forRange nCh (fun ch mx => (minWeight nPol row.vis ch).map fun w => if Fl.lt mx w then w else mx)
      mx) (.fin 0)
    (fun i mx => ∃ x, mx = .fin x ∧
      (∀ r c, r < i → c < nCh → m r c ≤ x) ∧
      ((0 < x ∧ ∃ r c, r < rows.len ∧ c < nCh ∧ m r c = x) ∨ x = 0))
    ⟨0, rfl, fun r c h => by omega, Or.inr rfl⟩
    (by
      rintro i mx hi ⟨x, rfl, hx1, hx2⟩
      simp only [Buf.rd_some hi, Option.bind_some]
      obtain ⟨mx', e', x', hx', h1', h2', h3'⟩ := forRange_inv nCh
        (fun ch mx => (minWeight nPol (rows.get i).vis ch).map fun w => if Fl.lt mx w then w else mx)
        (.fin x)
        (fun j mx => ∃ y, mx = .fin y ∧ x ≤ y ∧ (∀ c, c < j → m i c ≤ y) ∧
          ((0 < y ∧ ∃ r c, r < rows.len ∧ c < nCh ∧ m r c = y) ∨ y = 0))
        ⟨x, rfl, le_refl _, fun c h => by omega, hx2⟩
        (by
          rintro j mx hj ⟨y, rfl, hy1, hy2, hy3⟩
          simp only [minWeight_spec hp hW hi hj (hm i j hi hj), Option.map_some]
          by_cases hlt : y < m i j
          · refine ⟨.fin (m i j), by simp [Fl.lt, hlt], m i j, rfl, by linarith, ?_, ?_⟩
            · intro c hc
              rcases Nat.lt_or_eq_of_le (Nat.le_of_lt_succ hc) with h | h
              · exact le_trans (hy2 c h) hlt.le
              · rw [h]
            · left
              refine ⟨?_, i, j, hi, hj, rfl⟩
              rcases hy3 with ⟨h, _⟩ | h <;> linarith
          · refine ⟨.fin y, by simp [Fl.lt, hlt], y, rfl, hy1, ?_, hy3⟩
            intro c hc
            rcases Nat.lt_or_eq_of_le (Nat.le_of_lt_succ hc) with h | h
            · exact hy2 c h
            · rw [h]; exact not_lt.mp hlt)
      refine ⟨mx', e', x', hx', ?_, h3'⟩
      intro r c hr hc
      rcases Nat.lt_or_eq_of_le (Nat.le_of_lt_succ hr) with h | h
      · exact le_trans (hx1 r c h hc) h1'
      · rw [h]; exact h2' c hc)
  refine ⟨mx, if x = 0 then 1 else x, e, ?_, ?_⟩
  · rw [hx]
    by_cases h : x = 0 <;> simp [nonZeroMax, Fl.eq, h]
  · rcases h2 with ⟨hpos, hex⟩ | h0
    · rw [if_neg hpos.ne']
      exact ⟨h1, Or.inl ⟨hpos, hex⟩⟩
    · rw [if_pos h0]
      subst h0
      exact ⟨fun r c hr hc => le_trans (h1 r c hr hc) (by norm_num), Or.inr ⟨rfl, h1⟩⟩

end Weight

end Dysco
