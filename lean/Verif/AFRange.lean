import Mathlib.Analysis.Real.Sqrt
import Verif.AFRangeLemmas
import Verif.AFFloat

/-!
# C82: the antenna-frequency encoder ends in double arithmetic

`af_error_float` (C80) and `af_fit_r64` (C36) assume that the normalised block has only components of
moderate size. Here this is derived from the data: if every component is zero or between `2^-40` and `2^40`,
then the normalised components are zero or between `2^-300` and `2^300`.
-/

namespace Dysco.AF
open TimeBlock Stochastic

variable {nR nPol nCh nAnt : Nat} {A : Nat → Nat × Nat} {D : Nat → Nat → Cx} {data : Block Cx}

/-- Samples without NaN or infinity have components that are zero or between `2^-40` and `2^40`; no
cross-correlation has a finite real part and a NaN as imaginary part. -/
def Moderate (nR n : Nat) (A : Nat → Nat × Nat) (D : Nat → Nat → Cx) : Prop :=
  ∀ r i, r < nR → i < n →
    (∀ a b, D r i = ⟨.fin a, .fin b⟩ → (a = 0 ∨ ((2 : ℚ) ^ (-40 : ℤ) ≤ |a| ∧ |a| ≤ 2 ^ (40 : ℤ))) ∧
      (b = 0 ∨ ((2 : ℚ) ^ (-40 : ℤ) ≤ |b| ∧ |b| ≤ 2 ^ (40 : ℤ)))) ∧
    (Cross A r → ∀ a, D r i ≠ ⟨.fin a, .nan⟩)

theorem r64_ne_nan (x : ℚ) : Fl.r64 x ≠ .nan := by
  unfold Fl.r64 Fl.round
  split <;> simp

/-- A component divided by a finite number. -/
theorem div_fin_finite {x : Fl} {y a : ℚ} (hy : y ≠ 0) (h : Fl.div Fl.r64 x (.fin y) = .fin a) :
    ∃ b, x = .fin b ∧ Fl.r64 (b / y) = .fin a := by
  cases x with
  | fin b => exact ⟨b, rfl, by simpa [Fl.div, hy] using h⟩
  | inf s => simp [Fl.div] at h
  | nan => simp [Fl.div] at h

theorem div_fin_nan {x : Fl} {y : ℚ} (hy : y ≠ 0) (h : Fl.div Fl.r64 x (.fin y) = .nan) : x = .nan := by
  cases x with
  | fin b => exact absurd (by simpa [Fl.div, hy] using h) (r64_ne_nan (b / y))
  | inf s => simp [Fl.div] at h
  | nan => rfl

theorem divRms_re (s : Fl) (v : Cx) : (divRms Fl.r64 s v).re = if Fl.eq s (.fin 0) then v.re else Fl.div Fl.r64 v.re s := by
  unfold divRms; split <;> rfl

theorem divRms_im (s : Fl) (v : Cx) : (divRms Fl.r64 s v).im = if Fl.eq s (.fin 0) then v.im else Fl.div Fl.r64 v.im s := by
  unfold divRms; split <;> rfl

/-- After division by the RMS of the channel. -/
theorem channel_range {sq : Fl → Fl} (hsq : SqrtMono sq) (hn : nR ≤ 2 ^ 24) {n : Nat} (hM : Moderate nR n A D) {r i : Nat}
    (hr : r < nR) (hi : i < n) {v : Cx} (hv : v = divRms Fl.r64 (rms Fl.r64 sq (measFold Fl.r64 (fun r => D r i) nR)) (D r i)) :
    (FullyFinite v → ∀ a, IsComp v a → Mid (-80) 14 a) ∧ (Cross A r → ∀ a, v.re = .fin a → v.im ≠ .nan) := by
  obtain ⟨s, hs, hc⟩ := channel_measured (l := -40) (h := 40) (by norm_num) (by norm_num) (by norm_num)
    (v := fun r => D r i) hn (by
      rintro r hr ⟨x, y, e⟩ a ha
      obtain ⟨h1, h2⟩ := (hM r i hr hi).1 x y e
      rw [e] at ha
      rcases ha with ha | ha
      · obtain rfl : x = a := by simpa using ha
        exact h1
      · obtain rfl : y = a := by simpa using ha
        exact h2)
  have hcell := hM r i hr hi
  have hpart : ∀ w : Cx, ∀ a, w.re = .fin a → w.im = .nan → w = ⟨.fin a, .nan⟩ := by
    rintro ⟨x, y⟩ a h1 h2
    simp only at h1 h2
    rw [h1, h2]
  rcases hs.rms hsq (by norm_num) (by norm_num) (by norm_num) (le_trans hc hn) with ⟨h0, e⟩ | ⟨h0, y, e, y0, y1, y2, hy⟩
  · have hre : v.re = .nan := by rw [hv, divRms_re, e]; cases (D r i).re <;> rfl
    refine ⟨?_, fun _ a ha => by rw [hre] at ha; simp at ha⟩
    rintro ⟨a, b, rfl⟩
    simp at hre
  · rw [e] at hv
    by_cases hy0 : y = 0
    · have hvD : v = D r i := by rw [hv, hy0]; simp [divRms, Fl.eq]
      refine ⟨?_, fun hcr a ha hb => hcell.2 hcr a (by rw [← hvD]; exact hpart v a ha hb)⟩
      intro hf a ha
      left
      by_contra hane
      obtain ⟨p, q, epq⟩ := hf
      rw [hvD] at epq
      have hmid : (2 : ℚ) ^ (-40 : ℤ) ≤ |a| := by
        obtain ⟨h1, h2⟩ := hcell.1 p q epq
        rw [hvD, epq] at ha
        rcases ha with ha | ha
        · obtain rfl : p = a := by simpa using ha
          exact (h1.resolve_left hane).1
        · obtain rfl : q = a := by simpa using ha
          exact (h2.resolve_left hane).1
      rw [hvD] at ha
      have := hy (D r i) ⟨r, hr, rfl⟩ ⟨p, q, epq⟩ a ha (-40) (by norm_num) hmid
      rw [hy0] at this
      exact absurd this (not_le.mpr (Fl.zp_pos _))
    · have hre : v.re = Fl.div Fl.r64 (D r i).re (.fin y) := by rw [hv, divRms_re]; simp [Fl.eq, hy0]
      have him : v.im = Fl.div Fl.r64 (D r i).im (.fin y) := by rw [hv, divRms_im]; simp [Fl.eq, hy0]
      refine ⟨?_, ?_⟩
      · rintro ⟨a', b', ev⟩ a ha
        have e1 : v.re = .fin a' := by rw [ev]
        have e2 : v.im = .fin b' := by rw [ev]
        rw [hre] at e1
        rw [him] at e2
        obtain ⟨p, ep, rp⟩ := div_fin_finite hy0 e1
        obtain ⟨q, eq, rq⟩ := div_fin_finite hy0 e2
        have eD : D r i = ⟨.fin p, .fin q⟩ := by
          rcases hD : D r i with ⟨x1, x2⟩
          rw [hD] at ep eq
          simp only at ep eq
          rw [ep, eq]
        obtain ⟨h1, h2⟩ := hcell.1 p q eD
        have hyl := y1.resolve_left hy0
        have key : ∀ z u, Mid (-40) 40 z → IsComp (D r i) z → Fl.r64 (z / y) = .fin u → Mid (-80) 14 u := by
          intro z u hz hzc hzu
          by_cases hz0 : z = 0
          · left
            rw [hz0, zero_div, Fl.r64_zero] at hzu
            exact (Fl.fin.inj hzu).symm
          · obtain ⟨z1, z2⟩ := hz.resolve_left hz0
            obtain ⟨j, j1, j2⟩ := exists_exp (abs_pos.mpr hz0)
            have hj : -40 ≤ j := exp_le (le_trans z1 j2)
            have hyj := hy (D r i) ⟨r, hr, rfl⟩ ⟨p, q, eD⟩ z hzc (j - 1) (by omega) j1.le
            have hypos : 0 < y := lt_of_lt_of_le (Fl.zp_pos _) hyl
            obtain ⟨u', eu', k1, k2⟩ := r64_between_abs (x := z / y) (a := (2 : ℚ) ^ (-80 : ℤ)) (b := (2 : ℚ) ^ (14 : ℤ))
              (repr64_pow (by norm_num)) (repr64_pow (by norm_num)) (Fl.zp_pos _).le (zle (by norm_num))
              (by
                rw [abs_div, abs_of_pos hypos, show (-80 : ℤ) = -40 - 40 by norm_num, ← zsub]
                exact div_le_div₀ (abs_nonneg _) z1 hypos y2)
              (by
                rw [abs_div, abs_of_pos hypos, show (14 : ℤ) = j - (j - 1 - 13) by ring, ← zsub]
                exact div_le_div₀ (Fl.zp_pos _).le j2 (Fl.zp_pos _) hyj)
            rw [hzu] at eu'
            rw [Fl.fin.inj eu']
            exact Or.inr ⟨k1, k2⟩
        rcases ha with ha | ha
        · rw [hre, e1] at ha
          obtain rfl : a' = a := by simpa using ha
          exact key p a' h1 (Or.inl ep) rp
        · rw [him, e2] at ha
          obtain rfl : b' = a := by simpa using ha
          exact key q b' h2 (Or.inr eq) rq
      · intro hcr a ha hb
        rw [hre] at ha
        rw [him] at hb
        obtain ⟨p, ep, _⟩ := div_fin_finite hy0 ha
        exact hcell.2 hcr p (hpart _ _ ep (div_fin_nan hy0 hb))

/-- What the factor of a baseline can be. -/
def FactorOk (v : Cx) (f : Fl) : Prop :=
  f = .fin 0 ∨ (∃ q, f = .fin q ∧ (2 : ℚ) ^ (-204 : ℤ) ≤ |q| ∧ |q| ≤ 2 ^ (148 : ℤ)) ∨
    (((∃ q, f = .fin q ∧ q ≠ 0) ∨ ∃ s, f = .inf s) ∧ (FullyFinite v → ∀ a, IsComp v a → a = 0))

/-- The antenna values and the factors that follow from them. -/
theorem antenna_range {sq : Fl → Fl} (hsq : SqrtMono sq) (hA : AntennasBelow nR nAnt A) (hn0 : 0 < nAnt) (hn : nAnt ≤ 2 ^ 14)
    (hsize : nR * nCh ≤ 2 ^ 24) (hd : Holds nR (nPol * nCh) A D data) {p : Nat} (hp : p < nPol)
    (hv : ∀ r c, r < nR → c < nCh → FullyFinite (D r (c * nPol + p)) → ∀ a, IsComp (D r (c * nPol + p)) a → Mid (-80) 14 a) :
    ∃ ant, antennaRms Fl.r64 sq nPol nCh nAnt p data = some ant ∧ ant.len = nAnt ∧
      ∀ r c, r < nR → c < nCh → Cross A r →
        FactorOk (D r (c * nPol + p)) (antFactor Fl.r64 (ant.get (A r).1) (ant.get (A r).2)) := by
  obtain ⟨meas, e1, l1, hm⟩ := baseline_measured (l := -80) (h := 14) (by norm_num) (by norm_num) (by norm_num) hd hA hp
    hsize hv
  have hmat : ∀ i j, i < nAnt → j < nAnt → rmsMatrix Fl.r64 sq nAnt meas i j =
      some (rms Fl.r64 sq (meas.get (baselineIndex nAnt i j))) := by
    intro i j hi hj
    have hidx := baselineIndex_lt hi hj
    unfold rmsMatrix
    rw [Buf.rd_some (by omega)]
    rfl
  have hM : MatMid nAnt (rmsMatrix Fl.r64 sq nAnt meas) := by
    intro i j hi hj
    obtain ⟨hc, s, hs⟩ := hm _ (baselineIndex_lt hi hj)
    refine ⟨_, hmat i j hi hj, ?_⟩
    rcases hs.rms hsq (by norm_num) (by norm_num) (by norm_num) (le_trans hc hsize) with ⟨_, e⟩ | ⟨_, y, e, y0, y1, y2, _⟩
    · exact Or.inl e
    · exact Or.inr ⟨y, e, y0, y1, y2⟩
  obtain ⟨st, e2, hst⟩ := iterate_range hn0 hn hM
  refine ⟨st.ant, ?_, ?_, ?_⟩
  · unfold antennaRms
    rw [e1, Option.bind_some, e2]
    rfl
  · rcases hst with ⟨k, w, h, _⟩ | ⟨w, h, _⟩
    · exact h.1
    · exact h
  · intro r c hr hc hcr
    obtain ⟨a1, a2⟩ := hA r hr
    rcases hst with ⟨k, w, hw, hk1, hk2, _⟩ | ⟨w, _, hw, hdead⟩
    · obtain ⟨x1, x0, xl, xh⟩ := hw.2 _ a1
      obtain ⟨y1, y0, yl, yh⟩ := hw.2 _ a2
      have mx : Mid (k - 18) k (w (A r).1) := xl.imp id fun h => by rw [abs_of_nonneg x0]; exact ⟨h, xh⟩
      have my : Mid (k - 18) k (w (A r).2) := yl.imp id fun h => by rw [abs_of_nonneg y0]; exact ⟨h, yh⟩
      obtain ⟨q, eq, hq⟩ := mx.mul my (by omega) (by omega) (by omega)
      unfold antFactor
      rw [x1, y1]
      simp only [Fl.mul, eq, Fl.eq, decide_eq_true_eq]
      rcases hq with h0 | ⟨q1, q2⟩
      · rw [if_pos h0]
        exact Or.inl rfl
      · have hq0 : q ≠ 0 := by
          rintro rfl
          rw [abs_zero] at q1
          exact absurd q1 (not_le.mpr (Fl.zp_pos _))
        rw [if_neg hq0]
        right; left
        have m1 : Mid 0 0 (1 : ℚ) := Or.inr (by norm_num)
        obtain ⟨f, ef, hf⟩ := m1.div q1 q2 (by omega) (by omega) (by omega)
        refine ⟨f, by simp only [Fl.div, if_neg hq0, ef], ?_⟩
        have hfz : f ≠ 0 := by
          rintro rfl
          obtain ⟨f', ef', k1, _⟩ := r64_between_abs (x := 1 / q) (repr64_pow (by omega : -1000 ≤ 0 - (k + k)))
            (repr64_pow (by omega : -1000 ≤ 0 - (k - 18 + (k - 18)))) (Fl.zp_pos _).le (zle (by omega))
            (by rw [abs_div, abs_one, ← zsub, zpow_zero]
                exact one_div_le_one_div_of_le (abs_pos.mpr hq0) q2)
            (by rw [abs_div, abs_one, ← zsub, zpow_zero]
                exact one_div_le_one_div_of_le (Fl.zp_pos _) q1)
          rw [ef] at ef'
          rw [← Fl.fin.inj ef', abs_zero] at k1
          exact absurd k1 (not_le.mpr (Fl.zp_pos _))
        obtain ⟨f1, f2⟩ := hf.resolve_left hfz
        exact ⟨le_trans (zle (by omega)) f1, le_trans f2 (zle (by omega))⟩
    · obtain ⟨x1, x0, xh⟩ := hw _ a1
      obtain ⟨y1, y0, yh⟩ := hw _ a2
      obtain ⟨q, eq, q0, q1⟩ := r64_between (x := w (A r).1 * w (A r).2) (b := (2 : ℚ) ^ (204 : ℤ)) (Fl.Repr.zero _)
        (repr64_pow (by norm_num)) (le_refl _) (zle (by norm_num)) (mul_nonneg x0 y0)
        (by rw [show (204 : ℤ) = 102 + 102 by norm_num, ← zadd]
            exact mul_le_mul xh yh y0 (Fl.zp_pos _).le)
      unfold antFactor
      rw [x1, y1]
      simp only [Fl.mul, eq, Fl.eq, decide_eq_true_eq]
      by_cases h0 : q = 0
      · rw [if_pos h0]
        exact Or.inl rfl
      · rw [if_neg h0]
        right; right
        have hqpos : 0 < q := lt_of_le_of_ne q0 (Ne.symm h0)
        refine ⟨?_, ?_⟩
        · simp only [Fl.div, if_neg h0]
          have hge : (2 : ℚ) ^ (-204 : ℤ) ≤ Fl.rnd Fl.binary64 (1 / q) := by
            have : (2 : ℚ) ^ (-204 : ℤ) ≤ 1 / q := by
              rw [zpow_neg, ← one_div]
              exact one_div_le_one_div_of_le hqpos q1
            have := Fl.rnd_mono (f := Fl.binary64) (by decide) this
            rwa [Fl.rnd_of_repr (by decide) (repr64_pow (by norm_num))] at this
          unfold Fl.r64 Fl.round
          split
          · exact Or.inl ⟨_, rfl, (lt_of_lt_of_le (Fl.zp_pos _) hge).ne'⟩
          · exact Or.inr ⟨_, rfl⟩
        · intro hf a ha
          have hw2 : w (A r).2 ≠ 0 := by
            intro h
            rw [h, mul_zero, Fl.r64_zero] at eq
            exact h0 (Fl.fin.inj eq).symm
          obtain ⟨hc', s, hs⟩ := hm _ (baselineIndex_lt a1 a2)
          have hin : ∃ r' c', r' < nR ∧ c' < nCh ∧ (A r').1 ≠ (A r').2 ∧
              baselineIndex nAnt (A r').1 (A r').2 = baselineIndex nAnt (A r).1 (A r).2 ∧
              D r (c * nPol + p) = D r' (c' * nPol + p) := ⟨r, c, hr, hc, hcr, rfl, rfl⟩
          rcases hs.rms hsq (by norm_num) (by norm_num) (by norm_num) (le_trans hc' hsize) with ⟨z, _⟩ | ⟨_, y, e, _, _, _, hy⟩
          · have := (hs.has _ hin hf).1
            omega
          · have hy0 : y = 0 := hdead _ _ a1 a2 (Ne.symm hcr) hw2 y (by rw [hmat _ _ a1 a2, e])
            by_contra hane
            have hmid := (hv r c hr hc hf a ha).resolve_left hane
            have := hy _ hin hf a ha (-80) (by norm_num) hmid.1
            rw [hy0] at this
            exact absurd this (not_le.mpr (Fl.zp_pos _))

theorem mul_fin_finite {x f : Fl} {a : ℚ} (hf : (∃ q, f = .fin q ∧ q ≠ 0) ∨ ∃ s, f = .inf s) (h : Fl.mul Fl.r64 x f = .fin a) :
    ∃ b, x = .fin b := by
  cases x with
  | fin b => exact ⟨b, rfl⟩
  | inf s =>
    exfalso
    rcases hf with ⟨q, rfl, hq⟩ | ⟨t, rfl⟩
    · simp [Fl.mul, hq] at h
    · simp [Fl.mul] at h
  | nan =>
    exfalso
    rcases hf with ⟨q, rfl, hq⟩ | ⟨t, rfl⟩ <;> simp [Fl.mul] at h

theorem mul_fin_nan {x f : Fl} (hf : (∃ q, f = .fin q ∧ q ≠ 0)) (h : Fl.mul Fl.r64 x f = .nan) : x = .nan := by
  obtain ⟨q, rfl, hq⟩ := hf
  cases x with
  | fin b => exact absurd (by simpa [Fl.mul] using h) (r64_ne_nan (b * q))
  | inf s => simp [Fl.mul, hq] at h
  | nan => rfl

/-- A sample that is counted after scaling has components of moderate size. -/
theorem scaled_range {v : Cx} {f : Fl} {m : ℚ} (h1 : FullyFinite v → ∀ a, IsComp v a → Mid (-80) 14 a)
    (h2 : ∀ a, v.re = .fin a → v.im ≠ .nan) (hf : FactorOk v f) (hm : Counted (v.scale Fl.r64 f) m) :
    ∀ a, IsComp (v.scale Fl.r64 f) a → a = 0 ∨ ((2 : ℚ) ^ (-300 : ℤ) ≤ |a| ∧ |a| ≤ 2 ^ (300 : ℤ)) := by
  obtain ⟨x, y⟩ := v
  simp only [Cx.scale, IsComp, Counted] at hm h2 ⊢
  have full : (∃ q, f = .fin q ∧ q ≠ 0) → FullyFinite ⟨x, y⟩ := by
    intro hq
    obtain ⟨a, ea, hb⟩ := hm
    obtain ⟨p, rfl⟩ := mul_fin_finite (Or.inl hq) ea
    rcases hb with ⟨b, eb, _⟩ | ⟨eb, _⟩
    · obtain ⟨q', rfl⟩ := mul_fin_finite (Or.inl hq) eb
      exact ⟨p, q', rfl⟩
    · exact absurd (mul_fin_nan hq eb) (h2 p rfl)
  have zeroMul : ∀ z : Fl, ∀ a, Fl.mul Fl.r64 z (.fin 0) = .fin a → a = 0 := by
    intro z a h
    cases z with
    | fin b =>
      simp only [Fl.mul, mul_zero, Fl.r64_zero] at h
      exact (Fl.fin.inj h).symm
    | inf s => simp [Fl.mul] at h
    | nan => simp [Fl.mul] at h
  rcases hf with rfl | ⟨q, rfl, q1, q2⟩ | ⟨hq, hz⟩
  · rintro a (ha | ha) <;> exact Or.inl (zeroMul _ _ ha)
  · have hq0 : q ≠ 0 := by
      rintro rfl
      rw [abs_zero] at q1
      exact absurd q1 (not_le.mpr (Fl.zp_pos _))
    have hfull := full ⟨q, rfl, hq0⟩
    have hmid := h1 hfull
    obtain ⟨p, p', epp⟩ := hfull
    obtain ⟨rfl, rfl⟩ : x = .fin p ∧ y = .fin p' := by simpa using epp
    have key : ∀ b a, Mid (-80) 14 b → Fl.r64 (b * q) = .fin a →
        a = 0 ∨ ((2 : ℚ) ^ (-300 : ℤ) ≤ |a| ∧ |a| ≤ 2 ^ (300 : ℤ)) := by
      intro b a hb ha
      obtain ⟨u, eu, hu⟩ := hb.mul (b := q) (l2 := -204) (h2 := 148) (Or.inr ⟨q1, q2⟩) (by norm_num) (by norm_num) (by norm_num)
      rw [ha] at eu
      rw [Fl.fin.inj eu]
      exact hu.mono (by norm_num) (by norm_num)
    rintro a (ha | ha)
    · exact key p a (hmid p (Or.inl rfl)) ha
    · exact key p' a (hmid p' (Or.inr rfl)) ha
  · rcases hq with hq | ⟨s, rfl⟩
    · have hfull := full hq
      have hzero := hz hfull
      obtain ⟨p, p', epp⟩ := hfull
      obtain ⟨rfl, rfl⟩ : x = .fin p ∧ y = .fin p' := by simpa using epp
      obtain rfl := hzero p (Or.inl rfl)
      obtain rfl := hzero p' (Or.inr rfl)
      obtain ⟨q, rfl, _⟩ := hq
      rintro a (ha | ha)
      · simp only [Fl.mul, zero_mul, Fl.r64_zero] at ha
        exact Or.inl (Fl.fin.inj ha).symm
      · simp only [Fl.mul, zero_mul, Fl.r64_zero] at ha
        exact Or.inl (Fl.fin.inj ha).symm
    · obtain ⟨a, ea, _⟩ := hm
      exfalso
      cases x with
      | fin b =>
        simp only [Fl.mul] at ea
        split at ea <;> simp at ea
      | inf t => simp [Fl.mul] at ea
      | nan => simp [Fl.mul] at ea

/-- **C82** (first part): for moderate data, the normalised cross-correlations are moderate too: this is the
hypothesis of C36 and C80. -/
theorem normalize_range {sq : Fl → Fl} (hsq : SqrtMono sq) (hA : AntennasBelow nR nAnt A) (hR : 0 < nR)
    (hn : nAnt ≤ 2 ^ 14) (hrows : nR ≤ 2 ^ 24) (hsize : nR * nCh ≤ 2 ^ 24) (h : Holds nR (nPol * nCh) A D data)
    (hM : Moderate nR (nPol * nCh) A D) (metaB : Buf Fl) (hb : nPol * nCh + nAnt * nPol ≤ metaB.len) :
    ∃ st, normalize Fl.r32 Fl.r64 sq nPol nCh nAnt (data, metaB) = some st ∧ st.2.len = metaB.len ∧
      ∃ D', Holds nR (nPol * nCh) A D' st.1 ∧
        ∀ r i m, r < nR → i < nPol * nCh → Cross A r → Counted (D' r i) m →
          m ≤ 2 ^ (300 : ℤ) ∧ ∀ a, ((D' r i).re = .fin a ∨ (D' r i).im = .fin a) →
            a = 0 ∨ (2 : ℚ) ^ (-300 : ℤ) ≤ |a| := by
  have hn0 : 0 < nAnt := by
    have := (hA 0 hR).1
    omega
  obtain ⟨meas, e1, l1, hmeas⟩ := channelMeas_spec (RD := Fl.r64) h
  obtain ⟨D1, data1, meta1, e2, h1, h2, h3, h4, h5⟩ := normalizeChannels_spec (RF := Fl.r32)
    (RD := Fl.r64) (sq := sq) h meas l1 metaB (by omega)
  have hD1 : ∀ r i, r < nR → i < nPol * nCh → (FullyFinite (D1 r i) → ∀ a, IsComp (D1 r i) a → Mid (-80) 14 a) ∧
      (Cross A r → ∀ a, (D1 r i).re = .fin a → (D1 r i).im ≠ .nan) := by
    intro r i hr hi
    exact channel_range hsq hrows hM hr hi (by rw [h2 r i hr hi, hmeas i hi])
  obtain ⟨st, e3, k2, D2, k1, k4, k5⟩ := forRange_inv nPol
    (fun p st => AF.normalizeAntennas Fl.r32 Fl.r64 sq nPol nCh nAnt p st) (data1, meta1)
    (fun k st => st.2.len = metaB.len ∧ ∃ D2 : Nat → Nat → Cx, Holds nR (nPol * nCh) A D2 st.1 ∧
      (∀ r c p, r < nR → c < nCh → p < k → Cross A r → ∃ f, FactorOk (D1 r (c * nPol + p)) f ∧
        D2 r (c * nPol + p) = (D1 r (c * nPol + p)).scale Fl.r64 f) ∧
      (∀ r c p, p < nPol → k ≤ p → D2 r (c * nPol + p) = D1 r (c * nPol + p)))
    ⟨h3, D1, h1, fun _ _ _ _ _ hp => by omega, fun _ _ _ _ _ => rfl⟩ (by
      rintro p ⟨data2, meta2⟩ hp ⟨k2, D2, k1, k4, k5⟩
      simp only at k1 k2
      obtain ⟨ant, ea, la, hf⟩ := antenna_range hsq hA hn0 hn hsize k1 hp (by
        intro r c hr hc
        rw [k5 r c p hp (Nat.le_refl _)]
        exact (hD1 r _ hr (chan_lt hc hp)).1)
      obtain ⟨D3, data3, meta3, e3, g1, g2, g3, g4, _⟩ := normalizeAntennas_spec
        (RF := Fl.r32) k1 hA hp la ea meta2 (by omega)
      refine ⟨(data3, meta3), e3, by simp only; omega, D3, g1, ?_, ?_⟩
      · intro r c p' hr hc hp' hcr
        by_cases hpp : p' = p
        · subst hpp
          have e := k5 r c p' hp (Nat.le_refl _)
          have := hf r c hr hc hcr
          rw [e] at this
          exact ⟨_, this, by rw [g2 r c hr hc, e]⟩
        · obtain ⟨f, f1, f2⟩ := k4 r c p' hr hc (by omega) hcr
          exact ⟨f, f1, by rw [g3 r c p' (by omega) hpp, f2]⟩
      · intro r c p' hp' hle
        rw [g3 r c p' hp' (by omega), k5 r c p' hp' (by omega)])
  refine ⟨st, ?_, k2, D2, k1, ?_⟩
  · unfold AF.normalize
    rw [e1, Option.bind_some, e2, Option.bind_some]
    exact e3
  · intro r i m hr hi hcr hm
    have hpol : 0 < nPol := Nat.pos_of_ne_zero (by rintro rfl; simp at hi)
    have ei : i = i / nPol * nPol + i % nPol := by rw [Nat.mul_comm]; exact (Nat.div_add_mod i nPol).symm
    have hp : i % nPol < nPol := Nat.mod_lt _ hpol
    have hc : i / nPol < nCh := by rw [Nat.div_lt_iff_lt_mul hpol, Nat.mul_comm]; exact hi
    obtain ⟨f, f1, f2⟩ := k4 r _ _ hr hc hp hcr
    rw [← ei] at f1 f2
    obtain ⟨d1, d2⟩ := hD1 r i hr hi
    rw [f2] at hm ⊢
    have key := scaled_range d1 (d2 hcr) f1 hm
    refine ⟨?_, fun a ha => (key a ha).imp id And.left⟩
    have big : ∀ a, IsComp ((D1 r i).scale Fl.r64 f) a → |a| ≤ 2 ^ (300 : ℤ) := by
      intro a ha
      rcases key a ha with rfl | h
      · rw [abs_zero]; exact (Fl.zp_pos _).le
      · exact h.2
    obtain ⟨a, ea, ⟨b, eb, rfl⟩ | ⟨_, rfl⟩⟩ := hm
    · exact max_le (big a (Or.inl ea)) (big b (Or.inr eb))
    · exact big a (Or.inl ea)

/-- **C82** (second part): for every table of floats, every dithering and all moderate data of at most `2^24` rows and
samples per polarisation and `2^14` antennas, `encode` in double arithmetic ends without undefined behaviour; the
result does not depend on how long one waits. -/
theorem af_ends {sq : Fl → Fl} (hsq : SqrtMono sq) {e : Encoder} {b l : Nat → ℚ} {L : ℚ} (hT : Table e b l L)
    (hLr : Fl.Repr Fl.binary32 L) (dithered : Bool) (dith : Nat → Nat) (hc0 : 0 < nCh) (hR : 0 < nR)
    (hA : AntennasBelow nR nAnt A) (hn : nAnt ≤ 2 ^ 14) (hrows : nR ≤ 2 ^ 24) (hsize : nR * nCh ≤ 2 ^ 24)
    (h : Holds nR (nPol * nCh) A D data) (hM : Moderate nR (nPol * nCh) A D) (metaB : Buf Fl)
    (hb : nPol * nCh + nAnt * nPol ≤ metaB.len) (sym : Buf Nat) (hs : nR * (nPol * nCh) * 2 ≤ sym.len) :
    ∃ (N : Nat) (metaB' : Buf Fl) (sym' : Buf Nat), ∀ fuel, N ≤ fuel →
      encode Fl.r32 Fl.r64 sq (encFn Fl.r32 e dithered) e.maxQuantity nPol nCh nAnt dith fuel data metaB sym =
        some (some (metaB', sym')) := by
  have hL2 : L < 2 ^ (128 : ℤ) := lt_of_le_of_lt hT.le (by norm_num [fltMax])
  obtain ⟨⟨data0, meta0⟩, e0, l0, D0, k0, hrange⟩ := normalize_range hsq hA hR hn hrows hsize h hM metaB hb
  simp only at l0 k0
  obtain ⟨N, Y, st1, ef, y1, y2, _⟩ := af_fit_r64 (RF := Fl.r32) hT.pos hLr hL2 hA hc0 k0 meta0 (by omega)
    (fun r i m hr hi hcr hm => hrange r i m hr hi hcr hm)
  obtain ⟨sym', e2, _⟩ := quantise_total (RF := Fl.r32) (hT.total Fl.r32 dithered) (dith := dith) y1 sym hs
  refine ⟨N, st1.2, sym', ?_⟩
  intro fuel hf
  unfold encode
  rw [e0, Option.bind_some, hT.maxQuantity, ef fuel hf, Option.bind_some]
  simp only
  rw [e2]
  rfl

/-! ## The square root -/

/-- A correctly rounded square root (what IEEE 754 requires of `std::sqrt` for `double`) fulfils `SqrtMono`. -/
theorem sqrtMono_of_nearest {sq : Fl → Fl} (h0 : sq (.fin 0) = .fin 0) (hn : sq .nan = .nan)
    (hp : ∀ x, 0 < x → ∃ y, sq (.fin x) = .fin y ∧
      ∀ z, Fl.Repr Fl.binary64 z → |(y : ℝ) - √(x : ℝ)| ≤ |(z : ℝ) - √(x : ℝ)|) : SqrtMono sq where
  zero := h0
  nan := hn
  pos := by
    intro x hx
    obtain ⟨y, e, hy⟩ := hp x hx
    refine ⟨y, e, ?_⟩
    intro k hk
    have hz := hy _ (repr64_pow (by omega : -1000 ≤ k))
    have hpow : (0 : ℝ) < 2 ^ k := zpow_pos (by norm_num) k
    have e2 : ((2 : ℝ) ^ k) ^ 2 = 2 ^ (2 * k) := by
      rw [← zpow_natCast, ← zpow_mul, mul_comm]; norm_num
    push_cast at hz
    constructor
    · intro hle
      have hle' : (2 : ℝ) ^ (2 * k) ≤ x := by
        have := (Rat.cast_le (K := ℝ)).mpr hle
        push_cast at this
        exact this
      have h1 : (2 : ℝ) ^ k ≤ √(x : ℝ) := (Real.le_sqrt' hpow).mpr (by rw [e2]; exact hle')
      by_contra hlt
      have hlt' : (y : ℝ) < 2 ^ k := by
        have := (Rat.cast_lt (K := ℝ)).mpr (not_le.mp hlt)
        push_cast at this
        exact this
      rw [abs_of_nonpos (by linarith), abs_of_nonpos (by linarith)] at hz
      linarith
    · intro hle
      have hle' : (x : ℝ) ≤ (2 : ℝ) ^ (2 * k) := by
        have := (Rat.cast_le (K := ℝ)).mpr hle
        push_cast at this
        exact this
      have h1 : √(x : ℝ) ≤ (2 : ℝ) ^ k := (Real.sqrt_le_left hpow.le).mpr (by rw [e2]; exact hle')
      by_contra hlt
      have hlt' : (2 : ℝ) ^ k < (y : ℝ) := by
        have := (Rat.cast_lt (K := ℝ)).mpr (not_le.mp hlt)
        push_cast at this
        exact this
      rw [abs_of_nonneg (by linarith), abs_of_nonneg (by linarith)] at hz
      linarith

/-- A coarse square root, to show that the hypothesis can be met in exact arithmetic. -/
def coarseSqrt : Fl → Fl
  | .fin x => if x = 0 then .fin 0 else .fin (2 ^ (Int.log 2 x / 2))
  | _ => .nan

theorem coarseSqrt_mono : SqrtMono coarseSqrt where
  zero := by simp [coarseSqrt]
  nan := rfl
  pos := by
    intro x hx
    refine ⟨2 ^ (Int.log 2 x / 2), by simp [coarseSqrt, hx.ne'], ?_⟩
    intro k _
    constructor
    · intro h
      have : 2 * k ≤ Int.log 2 x := (Int.zpow_le_iff_le_log (R := ℚ) (b := 2) (by norm_num) hx).mp (by exact_mod_cast h)
      exact zle (by omega)
    · intro h
      have : Int.log 2 x ≤ 2 * k := by
        have h1 := Int.zpow_log_le_self (R := ℚ) (b := 2) (by norm_num) hx
        exact exp_le (le_trans (by exact_mod_cast h1) h)
      exact zle (by omega)

/-- Two rows of a baseline and one autocorrelation; one sample is NaN, one is half infinite. -/
def moderateVis (r i : Nat) : Cx :=
  if r = 0 then if i = 0 then ⟨.fin 3, .fin (-4)⟩ else ⟨.fin 0, .fin (1 / 1024)⟩
  else if r = 1 then if i = 0 then ⟨.nan, .nan⟩ else ⟨.fin 2, .inf true⟩
  else ⟨.fin 1000, .nan⟩

/-- The antennas of its rows. Not in the code. -/
def moderateAnt (r : Nat) : Nat × Nat := if r = 2 then (1, 1) else (0, 1)

/-- The hypotheses of `normalize_range` and `af_ends`. -/
example : SqrtMono coarseSqrt ∧ AntennasBelow 3 2 moderateAnt ∧ Moderate 3 (1 * 2) moderateAnt moderateVis ∧
    Cross moderateAnt 0 ∧
    Holds 3 (1 * 2) moderateAnt moderateVis ⟨3, fun r => ⟨(moderateAnt r).1, (moderateAnt r).2, ⟨2, moderateVis r⟩⟩⟩ := by
  refine ⟨coarseSqrt_mono, ?_, ?_, by unfold Cross; decide, ⟨rfl, fun _ _ => rfl, fun _ _ => rfl, fun _ _ _ _ => rfl⟩⟩
  · intro r _
    unfold moderateAnt
    split <;> decide
  · intro r i hr hi
    have hr' : r = 0 ∨ r = 1 ∨ r = 2 := by omega
    have hi' : i = 0 ∨ i = 1 := by omega
    rcases hr' with rfl | rfl | rfl <;> rcases hi' with rfl | rfl <;>
      refine ⟨?_, ?_⟩ <;> simp [moderateVis, Cross, moderateAnt] <;> norm_num

end Dysco.AF
