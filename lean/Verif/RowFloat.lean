import Verif.RowProps

/-!
# C67: round trip of row normalised data in float and double arithmetic
-/

namespace Dysco.Row
open TimeBlock Stochastic

variable {nR nPol nCh : Nat} {A : Nat → Nat × Nat} {D : Nat → Nat → Cx} {data : Block Cx}

/-- Multiplication of a level with the stored factor `float(M / L)`: the result is finite and close to
`l * (M / L)`. -/
theorem decode_component {lev M L : ℚ} (hL : 0 < L)
    (hL2 : L < 2 ^ (128 : ℤ)) (hlev : |lev| ≤ 5 / 4 * L) (hM : 0 < M) (hMr : Fl.Repr Fl.binary32 M)
    (hM2 : M ≤ 2 ^ (127 : ℤ)) (hML : M / L ≤ 2 ^ (127 : ℤ)) :
    ∃ y, Fl.cast Fl.r32 (Fl.mul Fl.r64 (.fin lev) (Fl.cast Fl.r32 (Fl.div Fl.r64 (.fin M) (.fin L)))) =
        .fin y ∧ |y - lev * (M / L)| ≤ M * (1 / 6000000) + (L + 1) * 2 ^ (-149 : ℤ) := by
  have z : ∀ {i j : ℤ}, i ≤ j → (2 : ℚ) ^ i ≤ 2 ^ j := fun h => zpow_le_zpow_right₀ (by norm_num) h
  have hMge := Fl.repr32_ge hMr hM
  have hf1 : (2 : ℚ) ^ (-277 : ℤ) ≤ M / L := by
    rw [le_div_iff₀ hL]
    refine le_trans (mul_le_mul_of_nonneg_left hL2.le (Fl.zp_pos _).le) ?_
    rw [← zpow_add₀ (by norm_num)]
    exact le_trans (z (by norm_num)) hMge
  have hq0 : 0 < M / L := div_pos hM hL
  have hqL : M / L * L = M := div_mul_cancel₀ M hL.ne'
  obtain ⟨eS, hS⟩ := Fl.r64_normal (x := M / L)
    (by rw [abs_of_pos hq0]; exact le_trans (z (by norm_num)) hf1)
    (by rw [abs_of_pos hq0]; exact le_trans hML (z (by norm_num)))
  rw [abs_of_pos hq0, show (2 : ℚ) ^ (-53 : ℤ) = 1 / 9007199254740992 by norm_num] at hS
  have hdiv : Fl.div Fl.r64 (.fin M) (.fin L) = .fin (Fl.rnd Fl.binary64 (M / L)) := by
    simp only [Fl.div, if_neg hL.ne', eS]
  rw [hdiv]
  generalize M / L = q at *
  generalize Fl.rnd Fl.binary64 q = S at *
  have hS' := abs_le.mp hS
  have hS0 : 0 < S := by nlinarith
  have gS := Fl.rnd_gen_err (f := Fl.binary32) S
  have e24 : (2 : ℚ) ^ (-(Fl.binary32.p : ℤ)) = 1 / 16777216 := by norm_num [Fl.binary32]
  have e150 : Fl.binary32.emin - 1 = -150 := by norm_num [Fl.binary32]
  rw [e24, e150, abs_of_pos hS0] at gS
  have h127 : (2 : ℚ) ^ (128 : ℤ) = 2 ^ (127 : ℤ) * 2 := by norm_num
  have h127p : (1 : ℚ) ≤ 2 ^ (127 : ℤ) := by norm_num
  have hu1 : (2 : ℚ) ^ (-150 : ℤ) ≤ 1 / 1000000000 := by norm_num
  have hu0 := Fl.zp_pos (-150)
  have e149 : (2 : ℚ) ^ (-149 : ℤ) = 2 ^ (-150 : ℤ) * 2 := by norm_num
  rw [e149]
  have hF : |Fl.rnd Fl.binary32 S - q| ≤ q * (1 / 16000000) + 2 ^ (-150 : ℤ) := by
    have t := abs_add_le (Fl.rnd Fl.binary32 S - S) (S - q)
    rw [sub_add_sub_cancel] at t
    generalize (2 : ℚ) ^ (-150 : ℤ) = u at *
    nlinarith
  have hFabs : |Fl.rnd Fl.binary32 S| ≤ q * (1 + 1 / 16000000) + 2 ^ (-150 : ℤ) := by
    have t := abs_add_le (Fl.rnd Fl.binary32 S - q) q
    rw [sub_add_cancel, abs_of_pos hq0] at t
    linarith
  have hFfin : Fl.cast Fl.r32 (.fin S) = .fin (Fl.rnd Fl.binary32 S) := by
    simp only [Fl.cast]
    apply Fl.r32_fin
    rw [h127]
    generalize (2 : ℚ) ^ (-150 : ℤ) = u at *
    generalize (2 : ℚ) ^ (127 : ℤ) = w at *
    linarith
  rw [hFfin]
  generalize Fl.rnd Fl.binary32 S = F at *
  -- product
  have hprod : |lev * F| ≤ 5 / 4 * (M * (1 + 1 / 16000000) + L * 2 ^ (-150 : ℤ)) := by
    rw [abs_mul]
    calc |lev| * |F| ≤ 5 / 4 * L * (q * (1 + 1 / 16000000) + 2 ^ (-150 : ℤ)) :=
          mul_le_mul hlev hFabs (abs_nonneg _) (by linarith)
      _ = _ := by rw [mul_assoc, mul_add, ← mul_assoc L, mul_comm L q, hqL]
  have hprodErr : |lev * F - lev * q| ≤ 5 / 4 * (M * (1 / 16000000) + L * 2 ^ (-150 : ℤ)) := by
    rw [← mul_sub, abs_mul]
    calc |lev| * |F - q| ≤ 5 / 4 * L * (q * (1 / 16000000) + 2 ^ (-150 : ℤ)) :=
          mul_le_mul hlev hF (abs_nonneg _) (by linarith)
      _ = _ := by rw [mul_assoc, mul_add, ← mul_assoc L, mul_comm L q, hqL]
  have hLu : L * 2 ^ (-150 : ℤ) ≤ 1 / 1000000 := by
    have h1 : L * 2 ^ (-150 : ℤ) ≤ 2 ^ (128 : ℤ) * 2 ^ (-150 : ℤ) :=
      mul_le_mul_of_nonneg_right hL2.le hu0.le
    rw [← zpow_add₀ (by norm_num)] at h1
    refine le_trans h1 ?_
    norm_num
  have gP := Fl.rnd_gen_err (f := Fl.binary64) (lev * F)
  have e53 : (2 : ℚ) ^ (-(Fl.binary64.p : ℤ)) = 1 / 9007199254740992 := by norm_num [Fl.binary64]
  have e1075 : (2 : ℚ) ^ (Fl.binary64.emin - 1) ≤ 2 ^ (-150 : ℤ) * (1 / 1000) := by
    have h1 : (2 : ℚ) ^ (Fl.binary64.emin - 1) ≤ 2 ^ (-160 : ℤ) := z (by norm_num [Fl.binary64])
    refine le_trans h1 ?_
    rw [show (-160 : ℤ) = -150 + -10 by norm_num, zpow_add₀ (by norm_num)]
    exact mul_le_mul_of_nonneg_left (by norm_num) hu0.le
  rw [e53] at gP
  have hP1 : |Fl.rnd Fl.binary64 (lev * F) - lev * F| ≤
      |lev * F| * (1 / 9007199254740992) + 2 ^ (-150 : ℤ) * (1 / 1000) := le_trans gP (by linarith)
  have hPabs : |Fl.rnd Fl.binary64 (lev * F)| ≤
      |lev * F| * (1 + 1 / 9007199254740992) + 2 ^ (-150 : ℤ) * (1 / 1000) := by
    have t := abs_add_le (Fl.rnd Fl.binary64 (lev * F) - lev * F) (lev * F)
    rw [sub_add_cancel] at t
    linarith
  have hPfin : Fl.mul Fl.r64 (.fin lev) (.fin F) = .fin (Fl.rnd Fl.binary64 (lev * F)) := by
    simp only [Fl.mul]
    apply Fl.r64_fin
    have h1 : (2 : ℚ) ^ (127 : ℤ) * 4 ≤ 2 ^ (1024 : ℤ) := by
      rw [show (4 : ℚ) = 2 ^ (2 : ℤ) by norm_num, ← zpow_add₀ (by norm_num)]
      exact z (by norm_num)
    refine lt_of_lt_of_le ?_ h1
    generalize (2 : ℚ) ^ (-150 : ℤ) = u at *
    generalize (2 : ℚ) ^ (127 : ℤ) = w at *
    linarith
  rw [hPfin]
  generalize Fl.rnd Fl.binary64 (lev * F) = P at *
  have gR := Fl.rnd_gen_err (f := Fl.binary32) P
  rw [e24, e150] at gR
  refine ⟨Fl.rnd Fl.binary32 P, ?_, ?_⟩
  · simp only [Fl.cast]
    apply Fl.r32_fin
    rw [h127]
    have t := abs_add_le (Fl.rnd Fl.binary32 P - P) P
    rw [sub_add_cancel] at t
    generalize (2 : ℚ) ^ (-150 : ℤ) = u at *
    generalize (2 : ℚ) ^ (127 : ℤ) = w at *
    linarith
  · have t1 := abs_add_le (Fl.rnd Fl.binary32 P - P) (P - lev * F)
    have t2 := abs_add_le (Fl.rnd Fl.binary32 P - lev * F) (lev * F - lev * q)
    rw [sub_add_sub_cancel] at t1 t2
    have hLu0 : 0 < L * 2 ^ (-150 : ℤ) := mul_pos hL hu0
    have e : (L + 1) * (2 ^ (-150 : ℤ) * 2) = 2 * (L * 2 ^ (-150 : ℤ)) + 2 * (2 : ℚ) ^ (-150 : ℤ) := by ring
    rw [e]
    generalize L * (2 : ℚ) ^ (-150 : ℤ) = v at *
    generalize (2 : ℚ) ^ (-150 : ℤ) = u at *
    linarith

/-- The bound of the round trip: quantisation and rounding. -/
def floatBound (δ M L : ℚ) : ℚ := δ * (M / L) + M * 2 ^ (-22 : ℤ) + (M / L + L + 1) * 2 ^ (-149 : ℤ)

/-- One component through scaling, quantisation and decoding. -/
theorem component_float {a M L δ : ℚ} (hL : 0 < L) (hLr : Fl.Repr Fl.binary32 L)
    (hL2 : L < 2 ^ (128 : ℤ)) (ha : Fl.Repr Fl.binary32 a) (haM : |a| ≤ M)
    (hMr : Fl.Repr Fl.binary32 M) (hM2 : M ≤ 2 ^ (127 : ℤ)) (hML : M / L ≤ 2 ^ (127 : ℤ))
    {enc : Fl → Nat → Option Nat} {dec : Nat → Option Fl} (hA : Accurate enc dec L δ)
    (hle : ∀ s x, dec s = some (.fin x) → |x| ≤ 5 / 4 * L) {d s : Nat}
    (hs : enc (Fl.cast Fl.r32 (Fl.mul Fl.r64 (.fin a) (rowFactor Fl.r64 (.fin L) (.fin M)))) d = some s)
    {lev : Fl} (hd : dec s = some lev) :
    ∃ y, Fl.cast Fl.r32 (Fl.mul Fl.r64 lev (Fl.cast Fl.r32 (Fl.div Fl.r64 (.fin M) (.fin L)))) = .fin y ∧
      |y - a| ≤ floatBound δ M L ∧ (M = 0 → y = 0) := by
  have hM3 : M < 2 ^ (128 : ℤ) := lt_of_le_of_lt hM2 (by norm_num)
  obtain ⟨x, ex, x1, x2, _, _⟩ := component_real hL hLr hL2 ha haM hMr hM3
  rw [ex] at hs
  obtain ⟨s', l', h1, h2, h3⟩ := hA x d x1
  obtain rfl : s' = s := by rw [h1] at hs; simpa using hs
  obtain rfl : .fin l' = lev := by rw [h2] at hd; simpa using hd
  have hl' := hle _ _ h2
  have hδ : 0 ≤ δ := le_trans (abs_nonneg _) h3
  rcases (le_trans (abs_nonneg a) haM).eq_or_lt with h0 | hM
  · subst h0
    have ha0 : a = 0 := abs_eq_zero.mp (le_antisymm haM (abs_nonneg a))
    subst ha0
    refine ⟨0, ?_, ?_, fun _ => rfl⟩
    · simp only [Fl.div, hL.ne', if_false, zero_div, Fl.r64_zero, Fl.cast, Fl.r32_zero, Fl.mul, mul_zero]
    · unfold floatBound
      rw [sub_zero, abs_zero, zero_div, mul_zero, zero_mul, zero_add, zero_add, zero_add]
      positivity
  · obtain ⟨y, ey, hy⟩ := decode_component hL hL2 hl' hM hMr hM2 hML
    refine ⟨y, ey, ?_, fun h => absurd h hM.ne'⟩
    have hx := x2 hM
    have hq0 : 0 < M / L := div_pos hM hL
    have hqL : M / L * L = M := div_mul_cancel₀ M hL.ne'
    have haq : a * (L / M) * (M / L) = a := by field_simp
    have t1 := abs_add_le (y - l' * (M / L)) (l' * (M / L) - a)
    rw [sub_add_sub_cancel] at t1
    have t2 : |l' * (M / L) - a| ≤ (δ + (L * (1 / 16000000) + 2 ^ (-150 : ℤ))) * (M / L) := by
      have : l' * (M / L) - a = (l' - a * (L / M)) * (M / L) := by rw [sub_mul, haq]
      rw [this, abs_mul, abs_of_pos hq0]
      apply mul_le_mul_of_nonneg_right _ hq0.le
      have t := abs_add_le (l' - x) (x - a * (L / M))
      rw [sub_add_sub_cancel] at t
      linarith
    have t3 : (δ + (L * (1 / 16000000) + 2 ^ (-150 : ℤ))) * (M / L) =
        δ * (M / L) + M * (1 / 16000000) + M / L * 2 ^ (-150 : ℤ) := by
      calc _ = δ * (M / L) + M / L * L * (1 / 16000000) + M / L * 2 ^ (-150 : ℤ) := by ring
        _ = _ := by rw [hqL]
    have e149 : (2 : ℚ) ^ (-149 : ℤ) = 2 ^ (-150 : ℤ) * 2 := by norm_num
    have e22 : (2 : ℚ) ^ (-22 : ℤ) = 1 / 4194304 := by norm_num
    have hu0 := Fl.zp_pos (-150)
    have hqu : 0 < M / L * 2 ^ (-150 : ℤ) := mul_pos hq0 hu0
    unfold floatBound
    rw [e149, e22]
    rw [e149] at hy
    have e1 : (M / L + L + 1) * (2 ^ (-150 : ℤ) * 2) =
        2 * (M / L * 2 ^ (-150 : ℤ)) + (L + 1) * (2 ^ (-150 : ℤ) * 2) := by ring
    rw [e1]
    generalize (L + 1) * ((2 : ℚ) ^ (-150 : ℤ) * 2) = v at *
    generalize M / L * (2 : ℚ) ^ (-150 : ℤ) = u at *
    linarith

/-- The levels lie between `-5/4 L` and `L`. -/
theorem level_le {e : Encoder} {b l : Nat → ℚ} {L : ℚ} (hT : Table e b l L) (hlo : -(5 / 4 * L) ≤ l 0)
    (s : Nat) (x : ℚ) (h : e.decode s = some (.fin x)) : |x| ≤ 5 / 4 * L := by
  have hcap := hT.levels.cap
  have hs : s < e.quantCount := by
    by_contra hn
    unfold Encoder.decode at h
    simp only [Encoder.quantCount] at hn
    rw [if_neg (by omega)] at h
    simp at h
  rw [hT.decode_some hs] at h
  simp only [Encoder.quantCount] at hs
  by_cases hsn : s = e.n
  · rw [hsn, hT.levels.slot] at h
    simp at h
  · have h2 := hT.levels.eq s (by omega)
    rw [h2] at h
    obtain rfl : l s = x := by simpa using h
    have a1 := StrictlyAscending.asc hT.levels.asc 0 s (by omega) (by omega)
    have a2 := StrictlyAscending.asc hT.levels.asc s (e.n - 1) (by omega) (by omega)
    rw [hT.top] at a2
    have := hT.pos
    exact abs_le.mpr ⟨by linarith, by linarith⟩

/-- **C67**: float and double arithmetic as in the code. `M r` is the maximum of row `r`, at most `2^127`
as a number and in units of the largest level `L`; the lowest level is not far below `-L`. Every finite
component of a counted visibility comes back with an error of at most `δ * (M r / L)`, the error of the quantiser, plus the rounding errors; when the
maximum is zero it comes back as zero. -/
theorem row_error_float {e : Encoder} {b l : Nat → ℚ} {L : ℚ} (hT : Table e b l L)
    (hLr : Fl.Repr Fl.binary32 L) (hlo : -(5 / 4 * L) ≤ l 0) (dithered : Bool) (dith : Nat → Nat) {δ : ℚ}
    (hA : Accurate (encFn Fl.r32 e dithered) e.decode L δ)
    (h : Holds nR (nPol * nCh) A D data)
    (hF : ∀ r i, r < nR → i < nPol * nCh → FloatVis (D r i))
    (M : Nat → ℚ) (hM : ∀ r, r < nR → IsMax (nPol * nCh) (D r) (M r))
    (hM2 : ∀ r, r < nR → M r ≤ 2 ^ (127 : ℤ) ∧ M r / L ≤ 2 ^ (127 : ℤ))
    (metaB : Buf Fl) (hm : nR ≤ metaB.len) (sym : Buf Nat) (hs : nR * (nPol * nCh) * 2 ≤ sym.len) :
    ∃ metaB' sym', encode Fl.r32 Fl.r64 (encFn Fl.r32 e dithered) e.maxQuantity nPol nCh dith
        data metaB sym = some (metaB', sym') ∧
      ∀ (dest : Block Cx) (r a1 a2 : Nat), r < nR → r < dest.len →
        ∃ dest', decode Fl.r32 Fl.r64 e.decode nPol nCh metaB' dest sym' r a1 a2 = some dest' ∧
          (dest'.get r).antenna1 = a1 ∧ (dest'.get r).antenna2 = a2 ∧
          (∀ j, j ≠ r → dest'.get j = dest.get j) ∧
          ∀ i m, i < nPol * nCh → Counted (D r i) m → ∀ a,
            ((D r i).re = .fin a → ∃ y, ((dest'.get r).vis.get i).re = .fin y ∧
              |y - a| ≤ floatBound δ (M r) L ∧ (M r = 0 → y = 0)) ∧
            ((D r i).im = .fin a → ∃ y, ((dest'.get r).vis.get i).im = .fin y ∧
              |y - a| ≤ floatBound δ (M r) L ∧ (M r = 0 → y = 0)) := by
  obtain ⟨metaB', sym', e1, l1, l2, hmeta, _, hsq, _, h8⟩ := encode_spec (RF := Fl.r32)
    (RD := Fl.r64) (hT.total Fl.r32 dithered) (maxLevel := e.maxQuantity) (dith := dith) h metaB hm
    sym hs
  refine ⟨metaB', sym', e1, ?_⟩
  intro dest r a1 a2 hr hd
  have hrow : (r * (nPol * nCh) + nPol * nCh) * 2 ≤ nR * (nPol * nCh) * 2 := by
    have : (r + 1) * (nPol * nCh) ≤ nR * (nPol * nCh) := Nat.mul_le_mul_right _ hr
    rw [Nat.add_mul, Nat.one_mul] at this
    omega
  obtain ⟨dest', e2, _, d2, d3, d4, _, d6⟩ := decode_spec (RF := Fl.r32) (RD := Fl.r64)
    (nPol := nPol) (nCh := nCh) hT metaB' sym' dest r a1 a2 hd (by omega) (by omega)
    (fun j hj => hsq j (by omega))
  refine ⟨dest', e2, d3, d4, d2, ?_⟩
  intro i m hi hc a
  have hmM := (hM r hr).2.1 i m hi hc
  have hlt := flat_lt hr hi
  have hL2 : L < 2 ^ (128 : ℤ) := lt_of_le_of_lt hT.le fltMax_lt
  obtain ⟨hMr, _⟩ := max_float (hM r hr) (fun i hi => hF r i hr hi)
  rw [d6 i hi, hmeta r hr, maxFold_eq (hM r hr), hT.maxQuantity]
  have h8' := h8 r i hr hi
  rw [maxFold_eq (hM r hr), hT.maxQuantity] at h8'
  constructor
  · intro ha
    rw [ha] at h8'
    exact component_float hT.pos hLr hL2 (hF r i hr hi a (Or.inl ha)).1 (le_trans (hc.re_le ha) hmM) hMr
      (hM2 r hr).1 (hM2 r hr).2 hA (level_le hT hlo) h8'.1 (hT.decode_some (hsq _ (by omega)))
  · intro ha
    rw [ha] at h8'
    exact component_float hT.pos hLr hL2 (hF r i hr hi a (Or.inr ha)).1 (le_trans (hc.im_le ha) hmM) hMr
      (hM2 r hr).1 (hM2 r hr).2 hA (level_le hT hlo) h8'.2 (hT.decode_some (hsq _ (by omega)))

/-- The bound on `M r` is needed: with the largest level `25 / 8`, a row maximum of FLT_MAX decodes to
infinity. -/
theorem row_max_overflows : Fl.cast Fl.r32 (Fl.mul Fl.r64 (.fin (25 / 8))
    (Fl.cast Fl.r32 (Fl.div Fl.r64 (.fin fltMax) (.fin (25 / 8))))) = .inf false := by
  decide +kernel

example : Accurate (encFn Fl.r32 smallTable true) smallTable.decode 1 1 :=
  dither_accurate smallTable_ok Fl.r32 1 (by norm_num) (by norm_num) (fun k _ => by push_cast; linarith)

example : Holds 1 1 (fun _ => (0, 1)) (fun _ _ => ⟨.fin 3, .fin (-1)⟩)
      ⟨1, fun _ => ⟨0, 1, ⟨1, fun _ => ⟨.fin 3, .fin (-1)⟩⟩⟩⟩ ∧
    FloatVis ⟨.fin 3, .fin (-1)⟩ ∧ Fl.Repr Fl.binary32 1 ∧ -(5 / 4 * 1) ≤ ((0 : Nat) : ℚ) - 1 ∧
    (3 : ℚ) ≤ 2 ^ (127 : ℤ) ∧ (3 : ℚ) / 1 ≤ 2 ^ (127 : ℤ) := by
  refine ⟨?_, ?_, by exact_mod_cast Fl.repr32_nat (n := 1) (by norm_num), by norm_num, by norm_num, by norm_num⟩
  · exact ⟨rfl, fun _ _ => rfl, fun _ _ => rfl, fun _ _ _ _ => rfl⟩
  · rintro a (h | h)
    · obtain rfl : 3 = a := by simpa using h
      exact ⟨by exact_mod_cast Fl.repr32_nat (n := 3) (by norm_num), by norm_num⟩
    · obtain rfl : -1 = a := by simpa using h
      refine ⟨?_, by norm_num⟩
      have := (Fl.repr32_nat (n := 1) (by norm_num)).neg
      exact_mod_cast this

end Dysco.Row
