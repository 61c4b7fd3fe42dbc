import Verif.RFProps
import Verif.RowFloat

/-!
# C78: round trip of row-frequency normalised data in float and double arithmetic

The examples are in `EndRF.lean`.
-/

namespace Dysco.RF
open TimeBlock Stochastic

variable {nR nPol nCh : Nat} {A : Nat → Nat × Nat} {D : Nat → Nat → Cx} {data : Block Cx}

/-- Storing a double that is close to `q` as float. -/
theorem store_factor {S q : ℚ} (hq : 0 < q) (hq2 : q ≤ 2 ^ (127 : ℤ))
    (hS : |S - q| ≤ q * (1 / 2251799813685248)) :
    ∃ F, Fl.cast Fl.r32 (.fin S) = .fin F ∧ |F - q| ≤ q * (1 / 16000000) + 2 ^ (-150 : ℤ) := by
  have hS' := abs_le.mp hS
  have hS0 : 0 < S := by nlinarith
  have gS := Fl.rnd_gen_err (f := Fl.binary32) S
  have e24 : (2 : ℚ) ^ (-(Fl.binary32.p : ℤ)) = 1 / 16777216 := by norm_num [Fl.binary32]
  have e150 : Fl.binary32.emin - 1 = -150 := by norm_num [Fl.binary32]
  rw [e24, e150, abs_of_pos hS0] at gS
  have h127 : (2 : ℚ) ^ (128 : ℤ) = 2 ^ (127 : ℤ) * 2 := by norm_num
  have h127p : (1 : ℚ) ≤ 2 ^ (127 : ℤ) := by norm_num
  have hu1 : (2 : ℚ) ^ (-150 : ℤ) ≤ 1 / 1000000000 := by norm_num
  have hF : |Fl.rnd Fl.binary32 S - q| ≤ q * (1 / 16000000) + 2 ^ (-150 : ℤ) := by
    have t := abs_add_le (Fl.rnd Fl.binary32 S - S) (S - q)
    rw [sub_add_sub_cancel] at t
    generalize (2 : ℚ) ^ (-150 : ℤ) = u at *
    linarith
  refine ⟨Fl.rnd Fl.binary32 S, ?_, hF⟩
  simp only [Fl.cast]
  apply Fl.r32_fin
  have t := abs_add_le (Fl.rnd Fl.binary32 S - q) q
  rw [sub_add_cancel, abs_of_pos hq] at t
  rw [h127]
  generalize (2 : ℚ) ^ (-150 : ℤ) = u at *
  generalize (2 : ℚ) ^ (127 : ℤ) = w at *
  linarith

/-- Product of the two stored factors. -/
theorem product_close {F G q c u : ℚ} (hq : 0 < q) (hc : 0 < c) (hc2 : c ≤ 2) (hu : 0 < u)
    (hu1 : u ≤ 1 / 1000000000) (hF : |F - q| ≤ q * (1 / 16000000) + u)
    (hG : |G - c| ≤ c * (1 / 16000000) + u) :
    |G * F - c * q| ≤ c * q * (1 / 7900000) + (q * (11 / 10) + 3) * u := by
  have e : G * F - c * q = (G - c) * (F - q) + (G - c) * q + c * (F - q) := by ring
  have t1 := abs_add_le ((G - c) * (F - q) + (G - c) * q) (c * (F - q))
  have t2 := abs_add_le ((G - c) * (F - q)) ((G - c) * q)
  rw [← e] at t1
  rw [abs_mul, abs_mul, abs_of_pos hq] at t2
  rw [abs_mul c, abs_of_pos hc] at t1
  have m1 : |G - c| * |F - q| ≤ (c * (1 / 16000000) + u) * (q * (1 / 16000000) + u) :=
    mul_le_mul hG hF (abs_nonneg _) (by positivity)
  have m2 := mul_le_mul_of_nonneg_right hG hq.le
  have m3 := mul_le_mul_of_nonneg_left hF hc.le
  have hcq := mul_pos hc hq
  have hqu := mul_pos hq hu
  have hcu : c * u ≤ 2 * u := mul_le_mul_of_nonneg_right hc2 hu.le
  have huu : u * u ≤ 1 / 1000000000 * u := mul_le_mul_of_nonneg_right hu1 hu.le
  have m1' : (c * (1 / 16000000) + u) * (q * (1 / 16000000) + u) =
      c * q * (1 / 256000000000000) + c * u * (1 / 16000000) + q * u * (1 / 16000000) + u * u := by ring
  have m2' : (c * (1 / 16000000) + u) * q = c * q * (1 / 16000000) + q * u := by ring
  have m3' : c * (q * (1 / 16000000) + u) = c * q * (1 / 16000000) + c * u := by ring
  rw [m1'] at m1
  rw [m2'] at m2
  rw [m3'] at m3
  have e2 : (q * (11 / 10) + 3) * u = q * u * (11 / 10) + 3 * u := by ring
  rw [e2]
  generalize c * q = v1 at *
  generalize q * u = v2 at *
  generalize c * u = v3 at *
  generalize u * u = v4 at *
  linarith

/-- Decoding a level with both stored factors. -/
theorem decode_two {lev F G q c L M : ℚ} (hL : 0 < L) (hL2 : L < 2 ^ (128 : ℤ)) (hlev : |lev| ≤ 5 / 4 * L)
    (hM : 0 < M) (hM2 : M ≤ 2 ^ (127 : ℤ)) (hqL : q * L = M) (hq : 0 < q)
    (hq2 : q ≤ 2 ^ (127 : ℤ)) (hc : 0 < c) (hc2 : c ≤ 1001 / 1000)
    (hF : |F - q| ≤ q * (1 / 16000000) + 2 ^ (-150 : ℤ))
    (hG : |G - c| ≤ c * (1 / 16000000) + 2 ^ (-150 : ℤ)) :
    ∃ y, Fl.cast Fl.r32 (Fl.mul Fl.r64 (.fin lev) (Fl.mul Fl.r64 (.fin G) (.fin F))) = .fin y ∧
      |y - lev * (c * q)| ≤ c * M * (1 / 4200000) + (M + 3 * L + 1) * 2 ^ (-149 : ℤ) := by
  have z : ∀ {i j : ℤ}, i ≤ j → (2 : ℚ) ^ i ≤ 2 ^ j := fun h => zpow_le_zpow_right₀ (by norm_num) h
  have hu1 : (2 : ℚ) ^ (-150 : ℤ) ≤ 1 / 1000000000 := by norm_num
  have hu0 := Fl.zp_pos (-150)
  have e149 : (2 : ℚ) ^ (-149 : ℤ) = 2 ^ (-150 : ℤ) * 2 := by norm_num
  have h127 : (2 : ℚ) ^ (128 : ℤ) = 2 ^ (127 : ℤ) * 2 := by norm_num
  have h127p : (1 : ℚ) ≤ 2 ^ (127 : ℤ) := by norm_num
  have hbig : (2 : ℚ) ^ (127 : ℤ) * 16 ≤ 2 ^ (1024 : ℤ) := by
    rw [show (16 : ℚ) = 2 ^ (4 : ℤ) by norm_num, ← zpow_add₀ (by norm_num)]
    exact z (by norm_num)
  have hMu : M * 2 ^ (-150 : ℤ) ≤ 1 / 1000000 := by
    have h1 : M * 2 ^ (-150 : ℤ) ≤ 2 ^ (127 : ℤ) * 2 ^ (-150 : ℤ) :=
      mul_le_mul_of_nonneg_right hM2 hu0.le
    rw [← zpow_add₀ (by norm_num)] at h1
    refine le_trans h1 ?_
    norm_num
  have hqu : q * 2 ^ (-150 : ℤ) ≤ 1 / 1000000 := by
    have h1 : q * 2 ^ (-150 : ℤ) ≤ 2 ^ (127 : ℤ) * 2 ^ (-150 : ℤ) :=
      mul_le_mul_of_nonneg_right hq2 hu0.le
    rw [← zpow_add₀ (by norm_num)] at h1
    refine le_trans h1 ?_
    norm_num
  have hLu : L * 2 ^ (-150 : ℤ) ≤ 1 / 1000000 := by
    have h1 : L * 2 ^ (-150 : ℤ) ≤ 2 ^ (128 : ℤ) * 2 ^ (-150 : ℤ) :=
      mul_le_mul_of_nonneg_right hL2.le hu0.le
    rw [← zpow_add₀ (by norm_num)] at h1
    refine le_trans h1 ?_
    norm_num
  have e53 : (2 : ℚ) ^ (-(Fl.binary64.p : ℤ)) = 1 / 9007199254740992 := by norm_num [Fl.binary64]
  have e1075 : (2 : ℚ) ^ (Fl.binary64.emin - 1) ≤ 2 ^ (-150 : ℤ) * (1 / 1000) := by
    have h1 : (2 : ℚ) ^ (Fl.binary64.emin - 1) ≤ 2 ^ (-160 : ℤ) := z (by norm_num [Fl.binary64])
    refine le_trans h1 ?_
    rw [show (-160 : ℤ) = -150 + -10 by norm_num, zpow_add₀ (by norm_num)]
    exact mul_le_mul_of_nonneg_left (by norm_num) hu0.le
  have e24 : (2 : ℚ) ^ (-(Fl.binary32.p : ℤ)) = 1 / 16777216 := by norm_num [Fl.binary32]
  have e150 : Fl.binary32.emin - 1 = -150 := by norm_num [Fl.binary32]
  have hp := product_close hq hc (by linarith) hu0 hu1 hF hG
  have gGF := Fl.rnd_gen_err (f := Fl.binary64) (G * F)
  rw [e53] at gGF
  have hMc : c * M ≤ 1001 / 1000 * M := mul_le_mul_of_nonneg_right hc2 hM.le
  have hcM := mul_pos hc hM
  have hqc := mul_pos hc hq
  have hcq2 : c * q ≤ 1001 / 1000 * q := mul_le_mul_of_nonneg_right hc2 hq.le
  -- the product of the factors
  have hT : |Fl.rnd Fl.binary64 (G * F) - c * q| ≤
      c * q * (1 / 7800000) + (q * (12 / 10) + 4) * 2 ^ (-150 : ℤ) := by
    have t := abs_add_le (Fl.rnd Fl.binary64 (G * F) - G * F) (G * F - c * q)
    have t2 := abs_add_le (G * F - c * q) (c * q)
    rw [sub_add_sub_cancel] at t
    rw [sub_add_cancel, abs_of_pos hqc] at t2
    have e1 : (q * (12 / 10) + 4) * (2 : ℚ) ^ (-150 : ℤ) =
      q * 2 ^ (-150 : ℤ) * (12 / 10) + 4 * 2 ^ (-150 : ℤ) := by ring
    have e2 : (q * (11 / 10) + 3) * (2 : ℚ) ^ (-150 : ℤ) =
      q * 2 ^ (-150 : ℤ) * (11 / 10) + 3 * 2 ^ (-150 : ℤ) := by ring
    have h3 := mul_pos hq hu0
    rw [e1]
    rw [e2] at hp
    generalize (2 : ℚ) ^ (Fl.binary64.emin - 1) = w at *
    generalize q * (2 : ℚ) ^ (-150 : ℤ) = v at *
    generalize (2 : ℚ) ^ (-150 : ℤ) = u at *
    generalize c * q = cq at *
    linarith
  have hGFfin : Fl.mul Fl.r64 (.fin G) (.fin F) = .fin (Fl.rnd Fl.binary64 (G * F)) := by
    simp only [Fl.mul]
    apply Fl.r64_fin
    have t := abs_add_le (Fl.rnd Fl.binary64 (G * F) - c * q) (c * q)
    rw [sub_add_cancel, abs_of_pos hqc] at t
    refine lt_of_lt_of_le ?_ hbig
    have e1 : (q * (12 / 10) + 4) * (2 : ℚ) ^ (-150 : ℤ) =
      q * 2 ^ (-150 : ℤ) * (12 / 10) + 4 * 2 ^ (-150 : ℤ) := by ring
    rw [e1] at hT
    generalize q * (2 : ℚ) ^ (-150 : ℤ) = v at *
    generalize (2 : ℚ) ^ (-150 : ℤ) = u at *
    generalize (2 : ℚ) ^ (127 : ℤ) = w at *
    generalize c * q = cq at *
    linarith
  rw [hGFfin]
  generalize Fl.rnd Fl.binary64 (G * F) = T at *
  -- times the level
  have hcqL : c * q * L = c * M := by rw [mul_assoc, hqL]
  have hlT : |lev * T - lev * (c * q)| ≤
      5 / 4 * (c * M * (1 / 7800000) + (M * (12 / 10) + 4 * L) * 2 ^ (-150 : ℤ)) := by
    rw [← mul_sub, abs_mul]
    calc |lev| * |T - c * q| ≤
          5 / 4 * L * (c * q * (1 / 7800000) + (q * (12 / 10) + 4) * 2 ^ (-150 : ℤ)) :=
          mul_le_mul hlev hT (abs_nonneg _) (by linarith)
      _ = 5 / 4 * (c * q * L * (1 / 7800000) + (q * L * (12 / 10) + 4 * L) * 2 ^ (-150 : ℤ)) := by ring
      _ = _ := by rw [hcqL, hqL]
  have hlcq : |lev * (c * q)| ≤ 5 / 4 * (c * M) := by
    rw [abs_mul, abs_of_pos hqc, ← hcqL]
    calc |lev| * (c * q) ≤ 5 / 4 * L * (c * q) := mul_le_mul_of_nonneg_right hlev hqc.le
      _ = _ := by ring
  have t1 := abs_add_le (lev * T - lev * (c * q)) (lev * (c * q))
  rw [sub_add_cancel] at t1
  have e2 : (M * (12 / 10) + 4 * L) * (2 : ℚ) ^ (-150 : ℤ) =
    M * 2 ^ (-150 : ℤ) * (12 / 10) + 4 * (L * 2 ^ (-150 : ℤ)) := by ring
  rw [e2] at hlT
  have gP := Fl.rnd_gen_err (f := Fl.binary64) (lev * T)
  rw [e53] at gP
  have hPfin : Fl.mul Fl.r64 (.fin lev) (.fin T) = .fin (Fl.rnd Fl.binary64 (lev * T)) := by
    simp only [Fl.mul]
    apply Fl.r64_fin
    have t := abs_add_le (Fl.rnd Fl.binary64 (lev * T) - lev * T) (lev * T)
    rw [sub_add_cancel] at t
    refine lt_of_lt_of_le ?_ hbig
    generalize (2 : ℚ) ^ (Fl.binary64.emin - 1) = w' at *
    generalize M * (2 : ℚ) ^ (-150 : ℤ) = v at *
    generalize L * (2 : ℚ) ^ (-150 : ℤ) = v' at *
    generalize (2 : ℚ) ^ (-150 : ℤ) = u at *
    generalize (2 : ℚ) ^ (127 : ℤ) = w at *
    linarith
  rw [hPfin]
  have hP : |Fl.rnd Fl.binary64 (lev * T) - lev * (c * q)| ≤ 5 / 4 * (c * M * (1 / 7700000)) +
      M * 2 ^ (-150 : ℤ) * (16 / 10) + 11 / 2 * (L * 2 ^ (-150 : ℤ)) + 2 ^ (-150 : ℤ) * (1 / 1000) := by
    have t := abs_add_le (Fl.rnd Fl.binary64 (lev * T) - lev * T) (lev * T - lev * (c * q))
    rw [sub_add_sub_cancel] at t
    have h3 := mul_pos hM hu0
    have h4 := mul_pos hL hu0
    generalize (2 : ℚ) ^ (Fl.binary64.emin - 1) = w' at *
    generalize M * (2 : ℚ) ^ (-150 : ℤ) = v at *
    generalize L * (2 : ℚ) ^ (-150 : ℤ) = v' at *
    generalize (2 : ℚ) ^ (-150 : ℤ) = u at *
    linarith
  generalize Fl.rnd Fl.binary64 (lev * T) = P at *
  have gR := Fl.rnd_gen_err (f := Fl.binary32) P
  rw [e24, e150] at gR
  have t2 := abs_add_le (P - lev * (c * q)) (lev * (c * q))
  rw [sub_add_cancel] at t2
  have h3 := mul_pos hM hu0
  have h4 := mul_pos hL hu0
  refine ⟨Fl.rnd Fl.binary32 P, ?_, ?_⟩
  · simp only [Fl.cast]
    apply Fl.r32_fin
    rw [h127]
    have t := abs_add_le (Fl.rnd Fl.binary32 P - P) P
    rw [sub_add_cancel] at t
    generalize M * (2 : ℚ) ^ (-150 : ℤ) = v at *
    generalize L * (2 : ℚ) ^ (-150 : ℤ) = v' at *
    generalize (2 : ℚ) ^ (-150 : ℤ) = u at *
    generalize (2 : ℚ) ^ (127 : ℤ) = w at *
    linarith
  · have t := abs_add_le (Fl.rnd Fl.binary32 P - P) (P - lev * (c * q))
    rw [sub_add_sub_cancel] at t
    have e : (M + 3 * L + 1) * (2 : ℚ) ^ (-149 : ℤ) = 2 * (M * 2 ^ (-150 : ℤ)) +
        6 * (L * 2 ^ (-150 : ℤ)) + 2 * (2 : ℚ) ^ (-150 : ℤ) := by rw [e149]; ring
    rw [e]
    generalize M * (2 : ℚ) ^ (-150 : ℤ) = v at *
    generalize L * (2 : ℚ) ^ (-150 : ℤ) = v' at *
    generalize (2 : ℚ) ^ (-150 : ℤ) = u at *
    linarith

/-- The channel factor is stored as float. -/
theorem chan_meta {C L : ℚ} (hL : 0 < L) (hLr : Fl.Repr Fl.binary32 L) (hL2 : L < 2 ^ (128 : ℤ))
    (hC : 2 ^ (-427 : ℤ) ≤ C) (hC2 : C ≤ 2 ^ (129 : ℤ)) (hCL : C / L ≤ 1001 / 1000) :
    ∃ G, Fl.cast Fl.r32 (Fl.div Fl.r64 (.fin 1) (chanFactor Fl.r64 (.fin L) (.fin C))) = .fin G ∧
      |G - C / L| ≤ C / L * (1 / 16000000) + 2 ^ (-150 : ℤ) := by
  have z : ∀ {i j : ℤ}, i ≤ j → (2 : ℚ) ^ i ≤ 2 ^ j := fun h => zpow_le_zpow_right₀ (by norm_num) h
  have hC0 : 0 < C := lt_of_lt_of_le (Fl.zp_pos _) hC
  have hfac : chanFactor Fl.r64 (.fin L) (.fin C) = Fl.div Fl.r64 (.fin L) (.fin C) := by
    simp [chanFactor, Fl.eq, hL.ne', hC0.ne']
  rw [hfac]
  have hLge := Fl.repr32_ge hLr hL
  have hf1 : (2 : ℚ) ^ (-278 : ℤ) ≤ L / C := by
    rw [le_div_iff₀ hC0]
    refine le_trans (mul_le_mul_of_nonneg_left hC2 (Fl.zp_pos _).le) ?_
    rw [← zpow_add₀ (by norm_num)]
    exact le_trans (z (by norm_num)) hLge
  have hf2 : L / C ≤ 2 ^ (555 : ℤ) := by
    rw [div_le_iff₀ hC0]
    refine le_trans hL2.le (le_trans ?_ (mul_le_mul_of_nonneg_left hC (Fl.zp_pos _).le))
    rw [← zpow_add₀ (by norm_num)]
    exact z (by norm_num)
  have hpos : 0 < L / C := div_pos hL hC0
  have hc0 : 0 < C / L := div_pos hC0 hL
  have hinv : C / L * (L / C) = 1 := by field_simp
  obtain ⟨eS, hS⟩ := Fl.r64_normal (x := L / C)
    (by rw [abs_of_pos hpos]; exact le_trans (z (by norm_num)) hf1)
    (by rw [abs_of_pos hpos]; exact le_trans hf2 (z (by norm_num)))
  have eps : (2 : ℚ) ^ (-53 : ℤ) = 1 / 9007199254740992 := by norm_num
  rw [abs_of_pos hpos, eps] at hS
  have hdiv : Fl.div Fl.r64 (.fin L) (.fin C) = .fin (Fl.rnd Fl.binary64 (L / C)) := by
    simp only [Fl.div, if_neg hC0.ne', eS]
  rw [hdiv]
  generalize Fl.rnd Fl.binary64 (L / C) = S at *
  have hS' := abs_le.mp hS
  have hS0 : 0 < S := by nlinarith
  have hSlo : L / C * (1 / 2) ≤ S := by nlinarith
  have hShi : S ≤ L / C * 2 := by nlinarith
  -- the reciprocal
  have hR0 : 0 < 1 / S := by positivity
  have hRS : 1 / S * S = 1 := by field_simp
  have hcs : |1 / S - C / L| ≤ C / L * (1 / 4503599627370496) := by
    have e : 1 / S - C / L = C / L * (1 / S) * (L / C - S) := by
      have : C / L * (1 / S) * (L / C - S) = C / L * (L / C) * (1 / S) - C / L * (1 / S * S) := by ring
      rw [this, hinv, hRS]; ring
    have hle : 1 / S * (L / C) ≤ 2 := by
      rw [one_div, inv_mul_le_iff₀ hS0]
      linarith
    rw [e, abs_mul, abs_of_pos (mul_pos hc0 hR0), mul_assoc]
    apply mul_le_mul_of_nonneg_left _ hc0.le
    rw [abs_sub_comm]
    calc 1 / S * |S - L / C| ≤ 1 / S * (L / C * (1 / 9007199254740992)) :=
          mul_le_mul_of_nonneg_left hS hR0.le
      _ = 1 / S * (L / C) * (1 / 9007199254740992) := by ring
      _ ≤ 2 * (1 / 9007199254740992) := mul_le_mul_of_nonneg_right hle (by norm_num)
      _ = _ := by norm_num
  have hRlo : (2 : ℚ) ^ (-600 : ℤ) ≤ 1 / S := by
    rw [le_div_iff₀ hS0]
    refine le_trans (mul_le_mul_of_nonneg_left
      (le_trans hShi (mul_le_mul_of_nonneg_right hf2 (by norm_num))) (Fl.zp_pos _).le) ?_
    rw [show (2 : ℚ) ^ (555 : ℤ) * 2 = 2 ^ (556 : ℤ) by
      rw [show (556 : ℤ) = 555 + 1 by norm_num, zpow_add₀ (by norm_num), zpow_one],
      ← zpow_add₀ (by norm_num)]
    exact le_trans (z (by norm_num : (-600 + 556 : ℤ) ≤ 0)) (by norm_num)
  have hRhi : 1 / S ≤ 2 := by
    have := (abs_le.mp hcs).2
    nlinarith
  obtain ⟨eR, hR⟩ := Fl.r64_normal (x := 1 / S)
    (by rw [abs_of_pos hR0]; exact le_trans (z (by norm_num)) hRlo)
    (by
      rw [abs_of_pos hR0]
      refine le_trans hRhi ?_
      calc (2 : ℚ) = 2 ^ (1 : ℤ) := by norm_num
        _ ≤ _ := z (by norm_num))
  rw [abs_of_pos hR0, eps] at hR
  have hdiv2 : Fl.div Fl.r64 (.fin 1) (.fin S) = .fin (Fl.rnd Fl.binary64 (1 / S)) := by
    simp only [Fl.div, if_neg hS0.ne', eR]
  rw [hdiv2]
  refine store_factor hc0 (le_trans hCL (by norm_num)) ?_
  have t := abs_add_le (Fl.rnd Fl.binary64 (1 / S) - 1 / S) (1 / S - C / L)
  rw [sub_add_sub_cancel] at t
  have := (abs_le.mp hcs).2
  linarith

/-- The row factor is stored as float. -/
theorem row_meta {M L : ℚ} (hL : 0 < L) (hL2 : L < 2 ^ (128 : ℤ)) (hM : 0 < M)
    (hMr : Fl.Repr Fl.binary32 M) (hML : M / L ≤ 2 ^ (127 : ℤ)) :
    ∃ F, Fl.cast Fl.r32 (rowMeta Fl.r64 (.fin L) (.fin M)) = .fin F ∧
      |F - M / L| ≤ M / L * (1 / 16000000) + 2 ^ (-150 : ℤ) := by
  have z : ∀ {i j : ℤ}, i ≤ j → (2 : ℚ) ^ i ≤ 2 ^ j := fun h => zpow_le_zpow_right₀ (by norm_num) h
  have hMge := Fl.repr32_ge hMr hM
  have hf1 : (2 : ℚ) ^ (-277 : ℤ) ≤ M / L := by
    rw [le_div_iff₀ hL]
    refine le_trans (mul_le_mul_of_nonneg_left hL2.le (Fl.zp_pos _).le) ?_
    rw [← zpow_add₀ (by norm_num)]
    exact le_trans (z (by norm_num)) hMge
  have hq0 : 0 < M / L := div_pos hM hL
  obtain ⟨eS, hS⟩ := Fl.r64_normal (x := M / L)
    (by rw [abs_of_pos hq0]; exact le_trans (z (by norm_num)) hf1)
    (by rw [abs_of_pos hq0]; exact le_trans hML (z (by norm_num)))
  rw [abs_of_pos hq0, show (2 : ℚ) ^ (-53 : ℤ) = 1 / 9007199254740992 by norm_num] at hS
  have hmeta : rowMeta Fl.r64 (.fin L) (.fin M) = .fin (Fl.rnd Fl.binary64 (M / L)) := by
    simp [rowMeta, Fl.eq, hL.ne', Fl.div, eS]
  rw [hmeta]
  exact store_factor hq0 hML (by linarith)

/-- The bound of the round trip: quantisation and rounding. `K` bounds the components of the channel in
units of the maximum of their row. -/
def floatBound (δ K M L : ℚ) : ℚ :=
  δ * K * (M / L) + M * K * 2 ^ (-21 : ℤ) + (M + M / L + 3 * L + 1) * 2 ^ (-149 : ℤ)

/-- From quantised to decoded component: `x` was given to the quantiser, `l` is the level, `P` the
component after the row stage. -/
theorem component_two {a P x l y c q K L M δ : ℚ} (hL : 0 < L) (hM : 0 < M) (hqL : q * L = M)
    (hq : 0 < q) (hc : 0 < c) (hK1 : K ≤ 1)
    (hcK : c ≤ K * (1 + 1 / 2251799813685248)) (haK : |a| ≤ K * M)
    (hP : |P * q - a| ≤ |a| * (1 / 2251799813685248))
    (hx : |x * c - P| ≤ c * (L * (1 / 16000000) + 2 ^ (-150 : ℤ)))
    (hl : |l - x| ≤ δ) (hl2 : |l - x| ≤ 3 * L)
    (hy : |y - l * (c * q)| ≤ c * M * (1 / 4200000) + (M + 3 * L + 1) * 2 ^ (-149 : ℤ)) :
    |y - a| ≤ floatBound δ K M L := by
  have hK : 0 < K := by nlinarith
  have hu0 := Fl.zp_pos (-150)
  have e : y - a = (y - l * (c * q)) + ((l - x) * (c * q) + ((x * c - P) * q + (P * q - a))) := by ring
  have t1 := abs_add_le (y - l * (c * q)) ((l - x) * (c * q) + ((x * c - P) * q + (P * q - a)))
  have t2 := abs_add_le ((l - x) * (c * q)) ((x * c - P) * q + (P * q - a))
  have t3 := abs_add_le ((x * c - P) * q) (P * q - a)
  rw [← e] at t1
  rw [abs_mul, abs_of_pos (mul_pos hc hq)] at t2
  rw [abs_mul, abs_of_pos hq] at t3
  have b1 : |x * c - P| * q ≤ c * M * (1 / 16000000) + c * q * 2 ^ (-150 : ℤ) := by
    calc _ ≤ c * (L * (1 / 16000000) + 2 ^ (-150 : ℤ)) * q := mul_le_mul_of_nonneg_right hx hq.le
      _ = c * (q * L) * (1 / 16000000) + c * q * 2 ^ (-150 : ℤ) := by ring
      _ = _ := by rw [hqL]
  have b2 : |l - x| * (c * q) ≤ δ * K * q + M * K * (1 / 700000000000000) := by
    calc |l - x| * (c * q) ≤ |l - x| * (K * (1 + 1 / 2251799813685248) * q) :=
          mul_le_mul_of_nonneg_left (mul_le_mul_of_nonneg_right hcK hq.le) (abs_nonneg _)
      _ = |l - x| * (K * q) + |l - x| * (K * q * (1 / 2251799813685248)) := by ring
      _ ≤ δ * (K * q) + 3 * L * (K * q * (1 / 2251799813685248)) := by
          apply add_le_add
          · exact mul_le_mul_of_nonneg_right hl (mul_pos hK hq).le
          · exact mul_le_mul_of_nonneg_right hl2 (by positivity)
      _ = δ * K * q + q * L * K * (3 / 2251799813685248) := by ring
      _ = δ * K * q + M * K * (3 / 2251799813685248) := by rw [hqL]
      _ ≤ _ := by
          have := mul_pos hM hK
          linarith
  have b3 : c * M ≤ M * K * (1 + 1 / 2251799813685248) := by
    calc c * M ≤ K * (1 + 1 / 2251799813685248) * M := mul_le_mul_of_nonneg_right hcK hM.le
      _ = _ := by ring
  have b4 : c * q * 2 ^ (-150 : ℤ) ≤ q * 2 ^ (-150 : ℤ) * 2 := by
    have : c ≤ 2 := by nlinarith
    have h1 := mul_le_mul_of_nonneg_right this (mul_pos hq hu0).le
    calc _ = c * (q * 2 ^ (-150 : ℤ)) := by ring
      _ ≤ _ := h1
      _ = _ := by ring
  have e149 : (2 : ℚ) ^ (-149 : ℤ) = 2 ^ (-150 : ℤ) * 2 := by norm_num
  have e21 : (2 : ℚ) ^ (-21 : ℤ) = 1 / 2097152 := by norm_num
  have hq' : M / L = q := by rw [← hqL]; field_simp
  unfold floatBound
  rw [hq', e21]
  have e5 : (M + q + 3 * L + 1) * (2 : ℚ) ^ (-149 : ℤ) =
      (M + 3 * L + 1) * 2 ^ (-149 : ℤ) + q * 2 ^ (-150 : ℤ) * 2 := by rw [e149]; ring
  rw [e5]
  have hMK := mul_pos hM hK
  have haK' : |a| ≤ M * K := by rw [mul_comm]; exact haK
  generalize (M + 3 * L + 1) * (2 : ℚ) ^ (-149 : ℤ) = v1 at *
  generalize q * (2 : ℚ) ^ (-150 : ℤ) = v2 at *
  generalize c * q * (2 : ℚ) ^ (-150 : ℤ) = v3 at *
  generalize δ * K * q = v4 at *
  generalize M * K = v5 at *
  generalize c * M = v6 at *
  linarith

/-- The component that a finite component after the row stage comes from. -/
theorem rowed_fin {L P : ℚ} {r i : Nat}
    (h : (rowed Fl.r64 (.fin L) nPol nCh D r i).re = .fin P ∨
      (rowed Fl.r64 (.fin L) nPol nCh D r i).im = .fin P) :
    ∃ a, ((D r i).re = .fin a ∨ (D r i).im = .fin a) ∧ Fl.mul Fl.r64 (.fin a)
      (Row.rowFactor Fl.r64 (.fin L) (pMax nPol nCh D r (i % nPol))) = .fin P := by
  have aux : ∀ v : Fl, Fl.mul Fl.r64 v
      (Row.rowFactor Fl.r64 (.fin L) (pMax nPol nCh D r (i % nPol))) = .fin P → ∃ a, v = .fin a := by
    intro v hv
    cases v with
    | fin a => exact ⟨a, rfl⟩
    | inf s =>
      have h1 := mul_nonfinite (R := Fl.r64) (v := .inf s)
        (f := Row.rowFactor Fl.r64 (.fin L) (pMax nPol nCh D r (i % nPol))) rfl
      rw [hv] at h1
      simp [Fl.isFinite] at h1
    | nan =>
      have h1 := mul_nonfinite (R := Fl.r64) (v := .nan)
        (f := Row.rowFactor Fl.r64 (.fin L) (pMax nPol nCh D r (i % nPol))) rfl
      rw [hv] at h1
      simp [Fl.isFinite] at h1
  simp only [rowed, Cx.scale] at h
  rcases h with h | h
  · obtain ⟨a, ha⟩ := aux _ h
    exact ⟨a, Or.inl ha, by rw [← ha]; exact h⟩
  · obtain ⟨a, ha⟩ := aux _ h
    exact ⟨a, Or.inr ha, by rw [← ha]; exact h⟩

/-- **C78**: float and double arithmetic as in the code. `M r p` is the maximum of row `r` and
polarisation `p`, at most `2^127` as a number and in units of the largest level. `K i` bounds the
components of channel and polarisation `i` in units of the maximum of their row: `1` always does, a
smaller number does when the channel is faint in every row. Every finite component of a counted
visibility comes back with an error of at most `δ * K i * (M r p / L)`, the error of the quantiser, plus
the rounding errors; when the row maximum is zero it comes back as zero. -/
theorem rf_error_float {e : Encoder} {b l : Nat → ℚ} {L : ℚ} (hT : Table e b l L)
    (hLr : Fl.Repr Fl.binary32 L) (hlo : -(5 / 4 * L) ≤ l 0) (dithered : Bool) (dith : Nat → Nat) {δ : ℚ}
    (hA : Accurate (encFn Fl.r32 e dithered) e.decode L δ)
    (h : Holds nR (nPol * nCh) A D data)
    (hF : ∀ r i, r < nR → i < nPol * nCh → FloatVis (D r i))
    (M : Nat → Nat → ℚ) (hM : ∀ r p, r < nR → p < nPol → RowPolMax nPol nCh D r p (M r p))
    (hM2 : ∀ r p, r < nR → p < nPol → M r p ≤ 2 ^ (127 : ℤ) ∧ M r p / L ≤ 2 ^ (127 : ℤ))
    (K : Nat → ℚ) (hK1 : ∀ i, i < nPol * nCh → K i ≤ 1)
    (hK : ∀ r i m, r < nR → i < nPol * nCh → Counted (D r i) m → m ≤ K i * M r (i % nPol))
    (hK0 : ∀ i, i < nPol * nCh → K i = 1 ∨ ∃ r m, r < nR ∧ Counted (D r i) m ∧ m ≠ 0)
    (metaB : Buf Fl) (hm : nPol * nCh + nR * nPol ≤ metaB.len) (sym : Buf Nat)
    (hs : nR * (nPol * nCh) * 2 ≤ sym.len) :
    ∃ metaB' sym', encode Fl.r32 Fl.r64 (encFn Fl.r32 e dithered) e.maxQuantity nPol nCh dith
        data metaB sym = some (metaB', sym') ∧
      ∀ (dest : Block Cx) (r a1 a2 : Nat), r < nR → r < dest.len →
        ∃ dest', decode Fl.r32 Fl.r64 e.decode nPol nCh metaB' dest sym' r a1 a2 = some dest' ∧
          (dest'.get r).antenna1 = a1 ∧ (dest'.get r).antenna2 = a2 ∧
          (∀ j, j ≠ r → dest'.get j = dest.get j) ∧
          ∀ i m, i < nPol * nCh → Counted (D r i) m → ∀ a,
            ((D r i).re = .fin a → ∃ y, ((dest'.get r).vis.get i).re = .fin y ∧
              |y - a| ≤ floatBound δ (K i) (M r (i % nPol)) L ∧ (M r (i % nPol) = 0 → y = 0)) ∧
            ((D r i).im = .fin a → ∃ y, ((dest'.get r).vis.get i).im = .fin y ∧
              |y - a| ≤ floatBound δ (K i) (M r (i % nPol)) L ∧ (M r (i % nPol) = 0 → y = 0)) := by
  obtain ⟨metaB', sym', e1, l1, l2, hch, hrw, _, hsq, _, h8⟩ := encode_spec (RF := Fl.r32)
    (RD := Fl.r64) (hT.total Fl.r32 dithered) (maxLevel := e.maxQuantity) (dith := dith) h metaB hm
    sym hs
  refine ⟨metaB', sym', e1, ?_⟩
  intro dest r a1 a2 hr hd
  have hrow : (r * (nPol * nCh) + nPol * nCh) * 2 ≤ nR * (nPol * nCh) * 2 := by
    have : (r + 1) * (nPol * nCh) ≤ nR * (nPol * nCh) := Nat.mul_le_mul_right _ hr
    rw [Nat.add_mul, Nat.one_mul] at this
    omega
  have hrp : (r + 1) * nPol ≤ nR * nPol := Nat.mul_le_mul_right _ hr
  obtain ⟨dest', e2, _, d2, d3, d4, _, d6⟩ := decode_spec (RF := Fl.r32) (RD := Fl.r64)
    (nPol := nPol) (nCh := nCh) hT metaB' sym' dest r a1 a2 hd (by omega) (by omega)
    (fun j hj => hsq j (by omega))
  refine ⟨dest', e2, d3, d4, d2, ?_⟩
  intro i m hi hc
  have hL2 : L < 2 ^ (128 : ℤ) := lt_of_le_of_lt hT.le fltMax_lt
  have hp : 0 < nPol := Nat.pos_of_ne_zero (by rintro rfl; simp at hi)
  have hip := Nat.mod_lt i hp
  have hL := hT.pos
  rw [hT.maxQuantity] at h8 hch hrw
  obtain ⟨hfl, hcomp, hcounted, hkeep, hchan⟩ := row_stage_facts hL hLr hL2 hF
  obtain ⟨C, eC, hC, hC0, hC2⟩ := hchan i hi
  have hMr := hM r _ hr hip
  obtain ⟨hMb, hMq⟩ := hM2 r _ hr hip
  have emr := hrw r _ hr hip
  have hpm : pMax nPol nCh D r (i % nPol) = .fin (M r (i % nPol)) := maxFold_eq hMr
  obtain ⟨hrep, hMlt⟩ : Fl.Repr Fl.binary32 (M r (i % nPol)) ∧ M r (i % nPol) < 2 ^ (128 : ℤ) := by
    obtain ⟨M', hM', _, h1, h2⟩ := hfl r i hr hi
    obtain rfl := hM'.unique hMr
    exact ⟨h1, h2⟩
  -- the channel maximum is within the given bound
  have hCK : 0 < C → C / L ≤ K i * (1 + 1 / 2251799813685248) := by
    intro hpos
    rcases hC.2.2 with h0 | ⟨r', hr', hcr⟩
    · exact absurd h0 hpos.ne'
    · obtain ⟨P, hP, hPC⟩ := hcr.attained
      obtain ⟨a', ha', ePa⟩ := rowed_fin hP
      obtain ⟨m', hcm⟩ := hcounted r' i C hr' hi hcr
      obtain ⟨P', p1, p2, _, _, p5⟩ := hcomp r' i m' a' hr' hi hcm ha'
      rw [p1] at ePa
      obtain rfl : P' = P := by simpa using ePa
      have ham : |a'| ≤ m' := by
        rcases ha' with h1 | h1
        · exact hcm.re_le h1
        · exact hcm.im_le h1
      have hMr' := hM r' _ hr' hip
      have hb := le_trans ham (hK r' i m' hr' hi hcm)
      have hM0 : 0 < M r' (i % nPol) := by
        rcases hMr'.1.eq_or_lt with h0 | h0
        · exfalso
          rw [← h0, mul_zero] at hb
          have := p2 (abs_eq_zero.mp (le_antisymm hb (abs_nonneg _)))
          rw [this, abs_zero] at hPC
          exact hpos.ne hPC
        · exact h0
      have h5 := p5 _ hMr' hM0
      have hX : |a'| * (L / M r' (i % nPol)) ≤ K i * L := by
        rw [← mul_div_assoc, div_le_iff₀ hM0]
        calc |a'| * L ≤ K i * M r' (i % nPol) * L := mul_le_mul_of_nonneg_right hb hL.le
          _ = _ := by ring
      have t := abs_sub_abs_le_abs_sub P' (a' * (L / M r' (i % nPol)))
      rw [abs_mul a', abs_of_pos (div_pos hL hM0), hPC] at t
      rw [div_le_iff₀ hL]
      generalize |a'| * (L / M r' (i % nPol)) = X at *
      linarith
  -- the stored channel factor
  have hG : ∃ c G, metaB'.get i = .fin G ∧ 0 < c ∧ c ≤ K i * (1 + 1 / 2251799813685248) ∧
      |G - c| ≤ c * (1 / 16000000) + 2 ^ (-150 : ℤ) ∧ (0 < C → c = C / L) := by
    have hk1 := hK1 i hi
    rcases hC.1.eq_or_lt with h0 | hpos
    · have hK1' : K i = 1 := by
        rcases hK0 i hi with h1 | ⟨r', m', hr', hcm, hm0⟩
        · exact h1
        · exfalso
          obtain ⟨m'', hc'', hne⟩ := hkeep r' i m' hr' hi hcm
          have := hC.2.1 r' m'' hr' hc''
          rw [← h0] at this
          exact hne hm0 (le_antisymm this hc''.nonneg)
      refine ⟨1, 1, ?_, one_pos, by rw [hK1']; norm_num, ?_, fun h' => absurd h0 h'.ne⟩
      · rw [hch i hi]
        unfold chF
        rw [eC, ← h0]
        have one : Fl.r64 1 = .fin 1 ∧ Fl.r32 1 = .fin 1 := by decide +kernel
        simp [chanFactor, Fl.eq, Fl.div, Fl.cast, one.1, one.2]
      · rw [sub_self, abs_zero]
        have := Fl.zp_pos (-150)
        linarith
    · have h1 := hCK hpos
      obtain ⟨G, eG, g⟩ := chan_meta hL hLr hL2 (by
        rcases hC0 with h0 | h0
        · exact absurd h0 hpos.ne'
        · exact h0) hC2 (by linarith)
      refine ⟨C / L, G, ?_, div_pos hpos hL, h1, g, fun _ => rfl⟩
      rw [hch i hi]
      unfold chF
      rw [eC, eG]
  obtain ⟨c, G, eG, c0, cK, hGc, hcC⟩ := hG
  have hkp := hkeep r i m hr hi hc
  obtain ⟨m', hc', _⟩ := hkp
  have hlt := flat_lt hr hi
  have main : ∀ (a : ℚ) (d s : Nat), ((D r i).re = .fin a ∨ (D r i).im = .fin a) → |a| ≤ m →
      s < e.quantCount →
      (∀ X, Fl.mul Fl.r64 (.fin a) (Row.rowFactor Fl.r64 (.fin L)
        (pMax nPol nCh D r (i % nPol))) = .fin X → |X| ≤ m') →
      encFn Fl.r32 e dithered (Fl.cast Fl.r32 (Fl.mul Fl.r64 (Fl.mul Fl.r64 (.fin a)
        (Row.rowFactor Fl.r64 (.fin L) (pMax nPol nCh D r (i % nPol))))
        (chF Fl.r64 (.fin L) nR nPol nCh D i))) d = some s →
      ∃ y, Fl.cast Fl.r32 (Fl.mul Fl.r64 (e.level s) (Fl.mul Fl.r64 (metaB'.get i)
        (metaB'.get (nPol * nCh + (r * nPol + i % nPol))))) = .fin y ∧
        |y - a| ≤ floatBound δ (K i) (M r (i % nPol)) L ∧ (M r (i % nPol) = 0 → y = 0) := by
    intro a d s ha ham hs hXm henc
    obtain ⟨P, p1, p2, p3, p4, p5⟩ := hcomp r i m a hr hi hc ha
    have hPC := le_trans (hXm P p1) (hC.2.1 r m' hr hc')
    have hP0 : P = 0 ∨ 2 ^ (-427 : ℤ) ≤ |P| := by
      by_cases h0 : a = 0
      · exact Or.inl (p2 h0)
      · exact Or.inr (p3 h0)
    obtain ⟨x, x1, x2, _, x4⟩ := chan_stage hL hLr hL2 hP0 hPC hC0 hC2
    rw [p1] at henc
    unfold chF at henc
    rw [eC, x1] at henc
    obtain ⟨s', l', f1, f2, f3⟩ := hA x d x2
    obtain rfl : s' = s := by rw [f1] at henc; simpa using henc
    have elev : e.level s' = .fin l' := by
      have := hT.decode_some hs
      rw [f2] at this
      simpa using this.symm
    have hl' := Row.level_le hT hlo _ _ f2
    have hδ : 0 ≤ δ := le_trans (abs_nonneg _) f3
    rw [elev, eG, emr, hpm]
    rcases hMr.1.eq_or_lt with h0 | hM0
    · rw [← h0]
      have hb := le_trans ham (hK r i m hr hi hc)
      rw [← h0, mul_zero] at hb
      have ha0 : a = 0 := abs_eq_zero.mp (le_antisymm hb (abs_nonneg a))
      refine ⟨0, ?_, ?_, fun _ => rfl⟩
      · simp [rowMeta, Fl.eq, Fl.div, hL.ne', Fl.cast, Fl.r64_zero, Fl.r32_zero, Fl.mul]
      · rw [ha0]
        unfold floatBound
        rw [sub_zero, abs_zero, zero_div, mul_zero, zero_mul, zero_mul, zero_add, zero_add, zero_add]
        positivity
    · obtain ⟨F, eF, hFq⟩ := row_meta hL hL2 hM0 hrep hMq
      rw [eF]
      have hqL : M r (i % nPol) / L * L = M r (i % nPol) := div_mul_cancel₀ _ hL.ne'
      have hq0 : 0 < M r (i % nPol) / L := div_pos hM0 hL
      have hk1 := hK1 i hi
      obtain ⟨y, ey, hy⟩ := decode_two hL hL2 hl' hM0 hMb hqL hq0 hMq c0 (by linarith) hFq hGc
      refine ⟨y, ey, ?_, fun h => absurd h hM0.ne'⟩
      refine component_two (x := x) (l := l') (P := P) hL hM0 hqL hq0 c0 hk1 cK
        (le_trans ham (hK r i m hr hi hc)) ?_ ?_ f3 ?_ hy
      · have h5 := p5 _ hMr hM0
        have e5 : a * (L / M r (i % nPol)) * (M r (i % nPol) / L) = a := by field_simp
        have e6 : |a| * (L / M r (i % nPol)) * (M r (i % nPol) / L) = |a| := by field_simp
        calc |P * (M r (i % nPol) / L) - a|
            = |(P - a * (L / M r (i % nPol))) * (M r (i % nPol) / L)| := by rw [sub_mul, e5]
          _ = |P - a * (L / M r (i % nPol))| * (M r (i % nPol) / L) := by
              rw [abs_mul, abs_of_pos hq0]
          _ ≤ |a| * (L / M r (i % nPol)) * (1 / 2251799813685248) * (M r (i % nPol) / L) :=
              mul_le_mul_of_nonneg_right h5 hq0.le
          _ = |a| * (L / M r (i % nPol)) * (M r (i % nPol) / L) * (1 / 2251799813685248) := by ring
          _ = _ := by rw [e6]
      · rcases hC.1.eq_or_lt with h0 | hpos
        · have hPz : P = 0 := by
            rw [← h0] at hPC
            exact abs_eq_zero.mp (le_antisymm hPC (abs_nonneg P))
          have hxz : x = 0 := by
            rw [hPz, ← h0] at x1
            simp [chanFactor, Fl.eq, Fl.mul, Fl.r64_zero, Fl.cast, Fl.r32_zero] at x1
            exact x1.symm
          rw [hxz, hPz, zero_mul, sub_zero, abs_zero]
          positivity
        · have h4 := x4 hpos
          rw [hcC hpos]
          have hcp := div_pos hpos hL
          have e5 : P * (L / C) * (C / L) = P := by field_simp
          calc |x * (C / L) - P| = |(x - P * (L / C)) * (C / L)| := by rw [sub_mul, e5]
            _ = |x - P * (L / C)| * (C / L) := by rw [abs_mul, abs_of_pos hcp]
            _ ≤ (L * (1 / 16000000) + 2 ^ (-150 : ℤ)) * (C / L) :=
                mul_le_mul_of_nonneg_right h4 hcp.le
            _ = _ := by ring
      · have := abs_sub l' x
        linarith
  have h8' := h8 r i hr hi
  simp only [rowed, Cx.scale] at h8'
  rw [d6 i hi]
  intro a
  constructor
  · intro ha
    rw [ha] at h8'
    exact main a _ _ (Or.inl ha) (hc.re_le ha) (hsq _ (by omega)) (fun X x1 => hc'.re_le (by
      simp only [rowed, Cx.scale]; rw [ha, x1])) h8'.1
  · intro ha
    rw [ha] at h8'
    exact main a _ _ (Or.inr ha) (hc.im_le ha) (hsq _ (by omega)) (fun X x1 => hc'.im_le (by
      simp only [rowed, Cx.scale]; rw [ha, x1])) h8'.2

/-- Two rows of two channels: the second channel is at most half as bright as the row maximum. -/
def two (r i : Nat) : ℚ := if i = 0 then (if r = 0 then 4 else 2) else 1

theorem two_counted {r i : Nat} {m : ℚ}
    (h : Counted (⟨.fin (two r i), .fin 0⟩ : Cx) m) : m = two r i := by
  have h0 : 0 ≤ two r i := by unfold two; split_ifs <;> norm_num
  refine h.unique ⟨two r i, rfl, Or.inl ⟨0, rfl, ?_⟩⟩
  rw [abs_of_nonneg h0, abs_zero, max_eq_left h0]

theorem two_ok : Holds 2 (1 * 2) (fun r => (r, r + 1)) (fun r i => ⟨.fin (two r i), .fin 0⟩)
      ⟨2, fun r => ⟨r, r + 1, ⟨2, fun i => ⟨.fin (two r i), .fin 0⟩⟩⟩⟩ ∧
    (∀ r i, FloatVis ⟨.fin (two r i), .fin 0⟩) ∧
    (∀ r p, r < 2 → p < 1 → RowPolMax 1 2 (fun r i => ⟨.fin (two r i), .fin 0⟩) r p (two r 0)) ∧
    (∀ r i m, Counted (⟨.fin (two r i), .fin 0⟩ : Cx) m →
      m ≤ (if i = 0 then 1 else 1 / 2) * two r 0) ∧
    (∃ r m, r < 2 ∧ Counted (⟨.fin (two r 1), .fin 0⟩ : Cx) m ∧ m ≠ 0) := by
  have h4 : ∀ r i, 0 ≤ two r i ∧ two r i ≤ two r 0 := by
    intro r i
    simp only [two, ↓reduceIte]
    split_ifs <;> norm_num
  have hc : ∀ r i, Counted (⟨.fin (two r i), .fin 0⟩ : Cx) (two r i) := fun r i =>
    ⟨two r i, rfl, Or.inl ⟨0, rfl, by rw [abs_of_nonneg (h4 r i).1, abs_zero, max_eq_left (h4 r i).1]⟩⟩
  refine ⟨⟨rfl, fun _ _ => rfl, fun _ _ => rfl, fun _ _ _ _ => rfl⟩, ?_, ?_, ?_, ?_⟩
  · rintro r i a (h | h)
    · obtain rfl : two r i = a := by simpa using h
      unfold two
      split_ifs
      · exact ⟨by exact_mod_cast Fl.repr32_nat (n := 4) (by norm_num), by norm_num⟩
      · exact ⟨by exact_mod_cast Fl.repr32_nat (n := 2) (by norm_num), by norm_num⟩
      · exact ⟨by exact_mod_cast Fl.repr32_nat (n := 1) (by norm_num), by norm_num⟩
    · obtain rfl : 0 = a := by simpa using h
      exact ⟨Fl.Repr.zero _, by norm_num⟩
  · intro r p hr hp
    obtain rfl : p = 0 := by omega
    refine ⟨(h4 r 0).1, ?_, Or.inr ⟨0, by omega, hc r 0⟩⟩
    intro i m _ hm
    rw [two_counted hm]
    exact (h4 r _).2
  · intro r i m hm
    rw [two_counted hm]
    simp only [two, ↓reduceIte]
    split_ifs <;> norm_num
  · exact ⟨0, 1, by omega, by simpa [two] using hc 0 1, by norm_num⟩

end Dysco.RF
