import Verif.EndPrepare

/-!
# Property C84: dithering in `float` arithmetic is unbiased up to `2^-22` of a step

C10 says that the mean over all dither values of the decoded value is the encoded value, for exact
arithmetic. The code computes the mark of `EncodeWithDithering` (stochasticencoder.h:103-123) with three
rounded operations and compares it with a dither value that was itself converted to `float`. The
theorem here bounds the mean in that arithmetic.
-/

namespace Dysco.Stochastic

/-- Binary32 numbers are whole multiples of `2^-149`. -/
theorem repr32_grid {q : ℚ} (h : Fl.Repr Fl.binary32 q) : ∃ m : ℤ, q = m * 2 ^ (-149 : ℤ) := by
  obtain ⟨m, k, hk, _, hq⟩ := h
  have hk' : (-149 : ℤ) ≤ k := hk
  obtain ⟨t, ht⟩ := Int.le.dest hk'
  refine ⟨m * 2 ^ t, ?_⟩
  rw [hq, ← ht, zpow_add₀ (by norm_num), zpow_natCast]
  push_cast
  ring

/-- A difference of floats has a small relative rounding error, however small it is. -/
theorem rnd_sub_rel {a c : ℚ} (ha : Fl.Repr Fl.binary32 a) (hc : Fl.Repr Fl.binary32 c) (h : c < a) :
    |Fl.rnd Fl.binary32 (a + -c) - (a + -c)| ≤ (a + -c) / 16777216 := by
  have hpos : 0 < a + -c := by linarith
  by_cases hb : (2 : ℚ) ^ (-126 : ℤ) ≤ a + -c
  · have := Fl.rnd_rel_err (f := Fl.binary32) (x := a + -c) (by rw [abs_of_pos hpos]; exact hb)
    rw [abs_of_pos hpos] at this
    have e : (2 : ℚ) ^ (-(Fl.binary32.p : ℤ)) = 1 / 16777216 := by norm_num [Fl.binary32]
    rw [e] at this
    linarith
  · obtain ⟨m1, e1⟩ := repr32_grid ha
    obtain ⟨m2, e2⟩ := repr32_grid hc
    have e : a + -c = ((m1 - m2 : ℤ) : ℚ) * 2 ^ (-149 : ℤ) := by
      rw [e1, e2]; push_cast; ring
    have hz := Fl.zp_pos (-149)
    have hm0 : 0 < m1 - m2 := by
      rw [e] at hpos
      have := pos_of_mul_pos_left hpos hz.le
      exact_mod_cast this
    have hm : m1 - m2 < 2 ^ 24 := by
      by_contra hcon
      apply hb
      rw [e]
      have h1 : ((2 ^ 24 : ℤ) : ℚ) ≤ ((m1 - m2 : ℤ) : ℚ) := by exact_mod_cast not_lt.mp hcon
      have h2 : (2 : ℚ) ^ (-126 : ℤ) ≤ ((2 ^ 24 : ℤ) : ℚ) * 2 ^ (-149 : ℤ) := by norm_num
      exact le_trans h2 (mul_le_mul_of_nonneg_right h1 hz.le)
    have hr : Fl.Repr Fl.binary32 (a + -c) := by
      rw [e]
      apply Fl.repr_int_mul _ _ (le_refl _)
      rw [abs_of_pos hm0]
      exact hm.le
    rw [Fl.rnd_of_repr (f := Fl.binary32) (by decide) hr, sub_self, abs_zero]
    positivity

/-- Numbers up to `2^31` are rounded by at most 64. -/
theorem rnd_le_64 {x : ℚ} (h0 : 0 ≤ x) (h1 : x ≤ 2 ^ 31) : |Fl.rnd Fl.binary32 x - x| ≤ 64 := by
  rcases h1.lt_or_eq with h | h
  · rcases h0.lt_or_eq with hp | hp
    · have he := Fl.rnd_err Fl.binary32 x
      have hl : Int.log 2 |x| < 31 := by
        rw [abs_of_pos hp, ← Int.lt_zpow_iff_log_lt (b := 2) (by norm_num) hp]
        push_cast
        exact_mod_cast h
      have hu : Fl.ulpExp Fl.binary32 x ≤ 7 := by
        unfold Fl.ulpExp
        apply max_le
        · have : (Fl.binary32.p : ℤ) = 24 := rfl
          omega
        · decide
      refine le_trans he ?_
      have : (2 : ℚ) ^ (Fl.ulpExp Fl.binary32 x - 1) ≤ 2 ^ (6 : ℤ) :=
        zpow_le_zpow_right₀ (by norm_num) (by omega)
      have e : (2 : ℚ) ^ (6 : ℤ) = 64 := by norm_num
      linarith
    · rw [← hp, Fl.rnd_zero]; norm_num
  · have h31 : Fl.Repr Fl.binary32 ((2 : ℚ) ^ 31) :=
      ⟨1, 31, by decide, by norm_num [Fl.binary32], by norm_num⟩
    rw [h, Fl.rnd_of_repr (f := Fl.binary32) (by decide) h31]
    norm_num

/-- The quotient of two numbers that are known up to `2^-24`. -/
theorem quotient_close {a b s t : ℚ} (ha : 0 < a) (hab : a ≤ b) (hs : |s - a| ≤ a / 16777216)
    (ht : |t - b| ≤ b / 16777216) : |2 ^ 31 * s / t - 2 ^ 31 * (a / b)| ≤ 257 := by
  have hb : 0 < b := lt_of_lt_of_le ha hab
  rw [abs_le] at hs ht
  have ht0 : 0 < t := by linarith [ht.1]
  have e : 2 ^ 31 * s / t - 2 ^ 31 * (a / b) = 2 ^ 31 * (s * b - a * t) / (t * b) := by
    field_simp
  rw [e, abs_div, abs_of_pos (mul_pos ht0 hb), div_le_iff₀ (mul_pos ht0 hb), abs_mul,
    abs_of_pos (by norm_num : (0 : ℚ) < 2 ^ 31)]
  have h1 : |s * b - a * t| ≤ 2 * (a * b) / 16777216 := by
    have e2 : s * b - a * t = (s - a) * b - a * (t - b) := by ring
    rw [e2, abs_le]
    constructor
    · nlinarith [hs.1, ht.2]
    · nlinarith [hs.2, ht.1]
  have h2 : b * b * (1 - 1 / 16777216) ≤ t * b := by nlinarith [ht.1]
  have h3 : a * b ≤ b * b := by nlinarith
  have h4 : 0 < b * b := by positivity
  linarith

/-- The mark computed by the code is within 321 of the exact one. -/
theorem mark_close {lo hi x : ℚ} (rl : Fl.Repr Fl.binary32 lo) (rh : Fl.Repr Fl.binary32 hi)
    (rx : Fl.Repr Fl.binary32 x) (bl : |lo| ≤ 2 ^ 90) (bh : |hi| ≤ 2 ^ 90) (h1 : lo < x) (h2 : x ≤ hi) :
    ∃ m, Fl.div Fl.r32 (Fl.mul Fl.r32 (.fin (2 ^ 31)) (Fl.r32 (x + -lo))) (Fl.r32 (hi + -lo)) = .fin m ∧
      |m - 2 ^ 31 * ((x - lo) / (hi - lo))| ≤ 321 := by
  have hlt : lo < hi := lt_of_lt_of_le h1 h2
  have hs := rnd_sub_rel rx rl h1
  have ht := rnd_sub_rel rh rl hlt
  have hst : Fl.rnd Fl.binary32 (x + -lo) ≤ Fl.rnd Fl.binary32 (hi + -lo) :=
    Fl.rnd_mono (by decide) (by linarith)
  have hsp : 0 < Fl.rnd Fl.binary32 (x + -lo) := lt_of_lt_of_le (Fl.zp_pos _) (rnd_sub_ne_zero rx rl h1)
  have htp : 0 < Fl.rnd Fl.binary32 (hi + -lo) := lt_of_lt_of_le hsp hst
  have hDle : Fl.rnd Fl.binary32 (hi + -lo) ≤ 2 ^ (91 : ℤ) := by
    have hr : Fl.Repr Fl.binary32 ((2 : ℚ) ^ (91 : ℤ)) :=
      ⟨1, 91, by decide, by norm_num [Fl.binary32], by norm_num⟩
    rw [← Fl.rnd_of_repr (f := Fl.binary32) (by decide) hr]
    apply Fl.rnd_mono (by decide)
    rw [abs_le] at bl bh
    have : (2 : ℚ) ^ (91 : ℤ) = 2 ^ 90 + 2 ^ 90 := by norm_num
    rw [this]
    linarith [bh.2, bl.1]
  have hlt97 : (2 : ℚ) ^ (91 : ℤ) < 2 ^ (97 : ℤ) := zpow_lt_zpow_right₀ (by norm_num) (by norm_num)
  have hlt128 : (2 : ℚ) ^ (97 : ℤ) < 2 ^ (128 : ℤ) := zpow_lt_zpow_right₀ (by norm_num) (by norm_num)
  have es : Fl.r32 (x + -lo) = .fin (Fl.rnd Fl.binary32 (x + -lo)) :=
    r32_fin (by rw [abs_of_pos hsp]; linarith)
  have et : Fl.r32 (hi + -lo) = .fin (Fl.rnd Fl.binary32 (hi + -lo)) :=
    r32_fin (by rw [abs_of_pos htp]; linarith)
  have rs := Fl.repr_rnd Fl.binary32 (x + -lo)
  have hq := quotient_close (by linarith : 0 < x + -lo) (by linarith : x + -lo ≤ hi + -lo) hs ht
  generalize Fl.rnd Fl.binary32 (x + -lo) = s at *
  generalize Fl.rnd Fl.binary32 (hi + -lo) = t at *
  have rP : Fl.Repr Fl.binary32 ((2 : ℚ) ^ 31 * s) := by
    obtain ⟨m, k, t1, t2, t3⟩ := rs
    refine ⟨m, k + 31, by omega, t2, ?_⟩
    rw [t3, zpow_add₀ (by norm_num)]
    have : (2 : ℚ) ^ (31 : ℤ) = 2 ^ 31 := by norm_num
    rw [this]
    ring
  have eP : Fl.r32 ((2 : ℚ) ^ 31 * s) = .fin (2 ^ 31 * s) := by
    apply r32_repr rP
    rw [abs_of_pos (by positivity)]
    have e1 : (2 : ℚ) ^ (128 : ℤ) = 2 ^ 31 * 2 ^ (97 : ℤ) := by norm_num
    rw [e1]
    apply mul_lt_mul_of_pos_left _ (by norm_num)
    linarith
  have hQ0 : 0 ≤ (2 : ℚ) ^ 31 * s / t := by positivity
  have hQ1 : (2 : ℚ) ^ 31 * s / t ≤ 2 ^ 31 := by
    rw [div_le_iff₀ htp]
    exact mul_le_mul_of_nonneg_left hst (by norm_num)
  have hR := rnd_le_64 hQ0 hQ1
  have eQ : Fl.r32 ((2 : ℚ) ^ 31 * s / t) = .fin (Fl.rnd Fl.binary32 (2 ^ 31 * s / t)) := by
    apply r32_fin
    rw [abs_of_nonneg (Fl.rnd_nonneg _ hQ0)]
    have : (2 : ℚ) ^ 31 + 64 < 2 ^ (128 : ℤ) := by norm_num
    rw [abs_le] at hR
    linarith [hR.2]
  refine ⟨Fl.rnd Fl.binary32 (2 ^ 31 * s / t), ?_, ?_⟩
  · rw [es, et]
    simp only [Fl.mul, eP, Fl.div, if_neg htp.ne']
    exact eQ
  · rw [← sub_eq_add_neg, ← sub_eq_add_neg] at hq
    rw [abs_le] at hR hq ⊢
    constructor <;> linarith [hR.1, hR.2, hq.1, hq.2]

/-- How often a decision is taken that agrees with `d < F` except within `w` of `F`. -/
theorem count_close (N : Nat) (F w : ℚ) (hF0 : 0 ≤ F) (hF1 : F ≤ N) (hw : 0 ≤ w) (P : Nat → Prop)
    [DecidablePred P] (hyes : ∀ d, d < N → (d : ℚ) + w < F → P d)
    (hno : ∀ d, d < N → P d → (d : ℚ) < F + w) :
    |(((Finset.range N).filter P).card : ℚ) - F| ≤ w + 1 := by
  rw [abs_le]
  constructor
  · have hsub : Finset.range (min N ⌈F - w⌉₊) ⊆ (Finset.range N).filter P := by
      intro d hd
      rw [Finset.mem_range, lt_min_iff, Nat.lt_ceil] at hd
      rw [Finset.mem_filter, Finset.mem_range]
      exact ⟨hd.1, hyes d hd.1 (by linarith [hd.2])⟩
    have hc := Finset.card_le_card hsub
    rw [Finset.card_range] at hc
    have hc' : ((min N ⌈F - w⌉₊ : Nat) : ℚ) ≤ (((Finset.range N).filter P).card : ℚ) := by
      exact_mod_cast hc
    have hm : F - w ≤ ((min N ⌈F - w⌉₊ : Nat) : ℚ) := by
      rw [Nat.cast_min, le_min_iff]
      exact ⟨by linarith, Nat.le_ceil _⟩
    linarith
  · have hsub : (Finset.range N).filter P ⊆ Finset.range ⌈F + w⌉₊ := by
      intro d hd
      rw [Finset.mem_filter, Finset.mem_range] at hd
      rw [Finset.mem_range, Nat.lt_ceil]
      exact hno d hd.1 hd.2
    have hc := Finset.card_le_card hsub
    rw [Finset.card_range] at hc
    have hc' : (((Finset.range N).filter P).card : ℚ) ≤ ((⌈F + w⌉₊ : Nat) : ℚ) := by
      exact_mod_cast hc
    have := Nat.ceil_lt_add_one (a := F + w) (by linarith)
    linarith

/-- The mean of a two-valued choice. -/
theorem mean_close (N : Nat) (hN : 0 < N) (lo D f w : ℚ) (hD : 0 ≤ D) (P : Nat → Prop)
    [DecidablePred P] (hc : |(((Finset.range N).filter P).card : ℚ) - N * f| ≤ w) :
    |(∑ d ∈ Finset.range N, (if P d then lo + D else lo)) / N - (lo + f * D)| ≤ D * w / N := by
  have hNp : (0 : ℚ) < N := by exact_mod_cast hN
  have h1 : ∀ d ∈ Finset.range N, (if P d then lo + D else lo) = lo + (if P d then D else 0) := by
    intro d _
    split <;> ring
  rw [Finset.sum_congr rfl h1, Finset.sum_add_distrib, Finset.sum_const, Finset.card_range,
    ← Finset.sum_filter, Finset.sum_const, nsmul_eq_mul, nsmul_eq_mul]
  generalize (((Finset.range N).filter P).card : ℚ) = M at *
  have e : (N * lo + M * D) / N - (lo + f * D) = D * (M - N * f) / N := by
    field_simp
    ring
  rw [e, abs_div, abs_of_pos hNp, abs_mul, abs_of_nonneg hD]
  exact div_le_div_of_nonneg_right (mul_le_mul_of_nonneg_left hc hD) hNp.le

/-- **C84**: for a table of floats and a float value inside the table, the mean of the decoded value
over all `2^31` dither values differs from the value by at most `2^-22` of the distance of the two levels
around it, with every operation of the encoder rounded to `float`. -/
theorem dither_mean_float {e : Encoder} {l : Nat → ℚ} (h : Levels e l) (hf : FloatLevels e.n l) (x : ℚ)
    (hx : Fl.Repr Fl.binary32 x) (hlo : l 0 < x) (hhi : x ≤ l (e.n - 1)) :
    ∃ k, k + 1 < e.n ∧ l k < x ∧ x ≤ l (k + 1) ∧
      |(∑ d ∈ Finset.range (2 ^ 31),
          valueOf ((e.encodeDither Fl.r32 (.fin x) d).bind e.decode)) / 2 ^ 31 - x|
        ≤ (l (k + 1) - l k) / 2 ^ 22 := by
  have hk : ∃ k, k + 1 < e.n ∧ l k < x ∧ x ≤ l (k + 1) := by
    rcases dither_search h Fl.r32 x 0 with ⟨h1, _⟩ | ⟨h1, _⟩ | ⟨k, h1, h2, h3, _⟩
    · linarith
    · linarith
    · exact ⟨k, h1, h2, h3⟩
  obtain ⟨k, k1, k2, k3⟩ := hk
  refine ⟨k, k1, k2, k3, ?_⟩
  have hD : 0 < l (k + 1) - l k := by linarith
  have hdec : ∀ s, s < e.n → e.decode s = some (.fin (l s)) := by
    intro s hs
    rw [Encoder.decode, if_pos (by rw [h.cap]; omega), h.eq s hs]
  obtain ⟨rl, bl⟩ := hf k (by omega)
  obtain ⟨rh, bh⟩ := hf (k + 1) k1
  obtain ⟨m, em, hm⟩ := mark_close rl rh hx bl bh k2 k3
  have hval : ∀ d : Nat, valueOf ((e.encodeDither Fl.r32 (.fin x) d).bind e.decode) =
      if Fl.lt (Fl.r32 d) (.fin m) = true then l k + (l (k + 1) - l k) else l k := by
    intro d
    rcases dither_search h Fl.r32 x d with ⟨h1, _⟩ | ⟨h1, _⟩ | ⟨j, h1, h2, h3, h4⟩
    · linarith
    · linarith
    · have hj : j = k := by
        rcases Nat.lt_trichotomy j k with hlt | heq | hgt
        · have := StrictlyAscending.asc h.asc (j + 1) k hlt (by omega)
          linarith
        · exact heq
        · have := StrictlyAscending.asc h.asc (k + 1) j hgt (by omega)
          linarith
      subst hj
      rw [h4, em]
      split
      · rw [Option.bind_some, hdec _ h1]
        change l (j + 1) = _
        ring
      · rw [Option.bind_some, hdec _ (by omega)]
        rfl
  rw [Finset.sum_congr rfl (fun d _ => hval d)]
  set D := l (k + 1) - l k with hDdef
  set f := (x - l k) / D with hfdef
  have hfx : x = l k + f * D := by
    rw [hfdef, div_mul_cancel₀ _ hD.ne']; ring
  have hf0 : 0 ≤ f := div_nonneg (by linarith) hD.le
  have hf1 : f ≤ 1 := by rw [hfdef, div_le_one hD]; linarith
  have hdith : ∀ d : Nat, d < 2 ^ 31 → Fl.r32 (d : ℚ) = .fin (Fl.rnd Fl.binary32 d) ∧
      |Fl.rnd Fl.binary32 (d : ℚ) - d| ≤ 64 := by
    intro d hd
    have h31 : (d : ℚ) ≤ 2 ^ 31 := by exact_mod_cast hd.le
    have h64 := rnd_le_64 (Nat.cast_nonneg d) h31
    refine ⟨r32_fin ?_, h64⟩
    rw [abs_of_nonneg (Fl.rnd_nonneg _ (Nat.cast_nonneg d))]
    have : (2 : ℚ) ^ 31 + 64 < 2 ^ (128 : ℤ) := by norm_num
    rw [abs_le] at h64
    linarith [h64.2]
  have hN : ((2 ^ 31 : Nat) : ℚ) = 2 ^ 31 := by norm_num
  rw [abs_le] at hm
  have hcount := count_close (2 ^ 31) (2 ^ 31 * f) 385 (by positivity)
    (by rw [hN]; nlinarith) (by norm_num) (fun d => Fl.lt (Fl.r32 d) (.fin m) = true)
    (by
      intro d hd hlt
      obtain ⟨e1, e2⟩ := hdith d hd
      rw [abs_le] at e2
      rw [e1]
      simp only [Fl.lt, decide_eq_true_eq]
      linarith [e2.2, hm.1])
    (by
      intro d hd hp
      obtain ⟨e1, e2⟩ := hdith d hd
      rw [abs_le] at e2
      rw [e1] at hp
      simp only [Fl.lt, decide_eq_true_eq] at hp
      linarith [e2.1, hm.2])
  have hmean := mean_close (2 ^ 31) (by norm_num) (l k) D f (385 + 1) hD.le
    (fun d => Fl.lt (Fl.r32 d) (.fin m) = true) (by rw [hN]; exact hcount)
  rw [hN, ← hfx] at hmean
  refine le_trans hmean ?_
  rw [div_le_div_iff₀ (by norm_num) (by norm_num)]
  nlinarith

/-- **C84**, how far from unbiased the code is: the mean for a value equal to a level (but the lowest) is lower than
the value by exactly `2^-25` of the distance to the level below. In exact arithmetic it is 0, see C10 and C11. -/
theorem dither_mean_level {e : Encoder} {l : Nat → ℚ} (h : Levels e l) (hf : FloatLevels e.n l) (s : Nat)
    (hs : s + 1 < e.n) :
    (∑ d ∈ Finset.range (2 ^ 31),
        valueOf ((e.encodeDither Fl.r32 (.fin (l (s + 1))) d).bind e.decode)) / 2 ^ 31 =
      l (s + 1) - (l (s + 1) - l s) / 2 ^ 25 := by
  have hdec : ∀ s, s < e.n → e.decode s = some (.fin (l s)) := by
    intro s hs
    rw [Encoder.decode, if_pos (by rw [h.cap]; omega), h.eq s hs]
  have hval : ∀ d ∈ Finset.range (2 ^ 31),
      valueOf ((e.encodeDither Fl.r32 (.fin (l (s + 1))) d).bind e.decode) =
        l (s + 1) - (if 2 ^ 31 - 64 ≤ d then l (s + 1) - l s else 0) := by
    intro d hd
    rw [dither_level_exact h hf (s + 1) hs d (Finset.mem_range.mp hd), Option.bind_some]
    by_cases hc : 2 ^ 31 - 64 ≤ d
    · rw [if_neg (by omega), if_pos hc, Nat.add_sub_cancel, hdec s (by omega)]
      change l s = _
      ring
    · rw [if_pos (Or.inr (by omega)), if_neg hc, hdec (s + 1) hs]
      change l (s + 1) = _
      ring
  rw [Finset.sum_congr rfl hval, Finset.sum_sub_distrib, Finset.sum_const, Finset.card_range,
    ← Finset.sum_filter, Finset.sum_const, nsmul_eq_mul, nsmul_eq_mul]
  have hfil : (Finset.range (2 ^ 31)).filter (fun d => 2 ^ 31 - 64 ≤ d) =
      Finset.Ico (2 ^ 31 - 64) (2 ^ 31) := by
    ext d
    simp only [Finset.mem_filter, Finset.mem_range, Finset.mem_Ico]
    exact and_comm
  rw [hfil, Nat.card_Ico]
  norm_num
  ring

/-- The hypotheses can be met: two levels, and a value between them that is not a level. -/
example : ∃ (e : Encoder) (l : Nat → ℚ), Levels e l ∧ FloatLevels e.n l ∧ Fl.Repr Fl.binary32 (1 / 4) ∧
    l 0 < 1 / 4 ∧ 1 / 4 < l (e.n - 1) := by
  let l : Nat → ℚ := fun i => if i = 0 then -1 else 1
  let e : Encoder := ⟨2, fun _ => .fin fltMax, fun i => if i < 2 then .fin (l i) else .nan, 3⟩
  refine ⟨e, l, ⟨Nat.le_refl 2, fun i hi => if_pos hi, ?_, rfl, rfl⟩, ?_,
    ⟨1, -2, by decide, by norm_num [Fl.binary32], by norm_num⟩, by norm_num [l], by norm_num [l, e]⟩
  · intro i j hij hj
    have hj2 : j < 2 := hj
    have h1 : i = 0 := by omega
    have h2 : j = 1 := by omega
    subst h1; subst h2
    norm_num [l]
  · intro i _
    by_cases h : i = 0
    · subst h
      exact ⟨⟨-1, 0, by decide, by norm_num [Fl.binary32], by norm_num [l]⟩, by norm_num [l]⟩
    · exact ⟨⟨1, 0, by decide, by norm_num [Fl.binary32], by simp [l, h]⟩, by simp [l, h]; norm_num⟩

end Dysco.Stochastic

namespace Dysco.End

open Stochastic
open Prepare (Lib encoder level_repr value_isFloat)
open Tools (Distribution)

/-- **C84** for the quantiser of a data column: with the distributions and bit counts of C79, the mean over the dither
values of what is decoded differs from the encoded number by at most `2^-22` of the largest distance of two levels. -/
theorem prepared_dither_mean {lib : Lib} {d : Distribution} {bits : Nat} (h : Concrete lib d bits) (h16 : bits ≤ 16)
    {fuel : Nat} {e0 d0 : Nat → Fl} {e : Stochastic.Encoder} (he : encoder lib fuel d bits e0 d0 = some e) :
    ∃ L : ℚ, 1 ≤ L ∧ L ≤ 5 / 2 ∧ e.maxQuantity = .fin L ∧
      ∀ x, Fl.Repr Fl.binary32 x → -L + L * ratio d ((2 ^ bits - 1 : Nat) : ℚ) < x → x ≤ L →
        |(∑ m ∈ Finset.range (2 ^ 31),
            Stochastic.valueOf ((e.encodeDither Fl.r32 (.fin x) m).bind e.decode)) / 2 ^ 31 - x|
          ≤ L * ratio d ((2 ^ bits - 1 : Nat) : ℚ) / 2 ^ 22 := by
  obtain ⟨e', b, l, L, δ, t1, t2, t3, t4, t5⟩ := concrete_table h h16 fuel e0 d0
  obtain rfl : e' = e := Option.some.inj (t1.symm.trans he)
  have hbits : 2 ≤ bits := by
    rcases h with ⟨_, h⟩ | ⟨_, h, _⟩ <;> omega
  have hq : 2 ^ 2 ≤ 2 ^ bits := Nat.pow_le_pow_right (by norm_num) hbits
  have hlv := t2.table.levels
  have hn2 := hlv.two
  have hLpos : (0 : ℚ) < L := by linarith
  have hδ : δ ≤ L * ratio d ((2 ^ bits - 1 : Nat) : ℚ) := by
    rw [div_le_iff₀ hLpos] at t3
    linarith
  have hfl : FloatLevels e'.n l := by
    intro i hi
    refine ⟨level_repr (by omega) (value_isFloat lib fuel d) t1 hlv hi, ?_⟩
    have h1 := StrictlyAscending.asc hlv.asc 0 i (by omega) hi
    have h2 := StrictlyAscending.asc hlv.asc i (e'.n - 1) (by omega) (by omega)
    rw [t2.table.top] at h2
    have h3 := t2.low
    rw [abs_le]
    constructor <;> norm_num <;> linarith
  refine ⟨L, t4, t5, ?_, ?_⟩
  · rw [Encoder.maxQuantity, hlv.eq _ (by omega), t2.table.top]
  · intro x hx hlo hhi
    obtain ⟨k, k1, _, _, k4⟩ := dither_mean_float hlv hfl x hx (by linarith [t2.sym])
      (by rw [t2.table.top]; exact hhi)
    refine le_trans k4 ?_
    apply div_le_div_of_nonneg_right _ (by norm_num)
    exact le_trans (t2.gap k k1) hδ

end Dysco.End
