import Verif.AFFit
import Verif.AFLemmas
import Verif.AFLayout

/-!
# Helper lemmas for C82: how large and small the normalised values can become

All bounds are powers of two (times a count), which are representable: rounding does not leave them.
-/

namespace Dysco.AF
open TimeBlock

/-! ## Rounding between representable bounds -/

theorem zle {i j : ℤ} (h : i ≤ j) : (2 : ℚ) ^ i ≤ 2 ^ j := zpow_le_zpow_right₀ (by norm_num) h

theorem zadd (i j : ℤ) : (2 : ℚ) ^ i * 2 ^ j = 2 ^ (i + j) := (zpow_add₀ (by norm_num) i j).symm

theorem zsub (i j : ℤ) : (2 : ℚ) ^ i / 2 ^ j = 2 ^ (i - j) := (zpow_sub₀ (by norm_num) i j).symm

theorem repr64_count {k : ℤ} (hk : -1000 ≤ k) {n : Nat} (hn : n ≤ 2 ^ 53) :
    Fl.Repr Fl.binary64 ((n : ℚ) * 2 ^ k) := by
  have := Fl.repr_int_mul (f := Fl.binary64) (n : ℤ) k (by show (-1074 : ℤ) ≤ k; omega)
    (by rw [Nat.abs_cast]; exact_mod_cast hn)
  exact_mod_cast this

theorem repr64_pow {k : ℤ} (hk : -1000 ≤ k) : Fl.Repr Fl.binary64 ((2 : ℚ) ^ k) := by
  have := repr64_count hk (n := 1) (by norm_num)
  simpa using this

theorem r64_between {a b x : ℚ} (ha : Fl.Repr Fl.binary64 a) (hb : Fl.Repr Fl.binary64 b) (h0 : 0 ≤ a)
    (hB : b ≤ 2 ^ (1000 : ℤ)) (h1 : a ≤ x) (h2 : x ≤ b) : ∃ q, Fl.r64 x = .fin q ∧ a ≤ q ∧ q ≤ b := by
  have e1 : a ≤ Fl.rnd Fl.binary64 x := by
    have := Fl.rnd_mono (f := Fl.binary64) (by decide) h1
    rwa [Fl.rnd_of_repr (by decide) ha] at this
  have e2 : Fl.rnd Fl.binary64 x ≤ b := by
    have := Fl.rnd_mono (f := Fl.binary64) (by decide) h2
    rwa [Fl.rnd_of_repr (by decide) hb] at this
  refine ⟨_, ?_, e1, e2⟩
  unfold Fl.r64 Fl.round
  rw [if_pos]
  rw [abs_of_nonneg (le_trans h0 e1)]
  exact lt_of_le_of_lt (le_trans e2 hB) (zpow_lt_zpow_right₀ (by norm_num) (by decide))

/-- The same for both signs. -/
theorem r64_between_abs {a b x : ℚ} (ha : Fl.Repr Fl.binary64 a) (hb : Fl.Repr Fl.binary64 b) (h0 : 0 ≤ a)
    (hB : b ≤ 2 ^ (1000 : ℤ)) (h1 : a ≤ |x|) (h2 : |x| ≤ b) :
    ∃ q, Fl.r64 x = .fin q ∧ a ≤ |q| ∧ |q| ≤ b := by
  rcases le_or_gt 0 x with h | h
  · rw [abs_of_nonneg h] at h1 h2
    obtain ⟨q, e, k1, k2⟩ := r64_between ha hb h0 hB h1 h2
    exact ⟨q, e, by rwa [abs_of_nonneg (le_trans h0 k1)], by rwa [abs_of_nonneg (le_trans h0 k1)]⟩
  · rw [abs_of_neg h] at h1 h2
    obtain ⟨q, e, k1, k2⟩ := r64_between ha hb h0 hB h1 h2
    have eq : Fl.rnd Fl.binary64 (-x) = q := by
      unfold Fl.r64 Fl.round at e
      split at e
      · exact Fl.fin.inj e
      · simp at e
    have hlt : |q| < 2 ^ (1024 : ℤ) := by
      rw [abs_of_nonneg (le_trans h0 k1)]
      exact lt_of_le_of_lt (le_trans k2 hB) (zpow_lt_zpow_right₀ (by norm_num) (by decide))
    refine ⟨-q, ?_, by rwa [abs_neg, abs_of_nonneg (le_trans h0 k1)],
      by rwa [abs_neg, abs_of_nonneg (le_trans h0 k1)]⟩
    rw [Fl.rnd_neg] at eq
    unfold Fl.r64 Fl.round
    have eq' : Fl.rnd Fl.binary64 x = -q := by linarith
    rw [eq', if_pos (by rw [abs_neg]; exact hlt)]

theorem r64_zero' : Fl.r64 0 = .fin 0 := Fl.r64_zero

/-! ## Numbers that are zero or between two powers of two -/

/-- `a` is zero or has a magnitude from `2^lo` to `2^hi`. -/
def Mid (lo hi : ℤ) (a : ℚ) : Prop := a = 0 ∨ ((2 : ℚ) ^ lo ≤ |a| ∧ |a| ≤ 2 ^ hi)

theorem Mid.le {lo hi : ℤ} {a : ℚ} (h : Mid lo hi a) : |a| ≤ 2 ^ hi := by
  rcases h with rfl | h
  · rw [abs_zero]; exact (Fl.zp_pos _).le
  · exact h.2

theorem Mid.mono {lo hi lo' hi' : ℤ} {a : ℚ} (h : Mid lo hi a) (h1 : lo' ≤ lo) (h2 : hi ≤ hi') :
    Mid lo' hi' a := h.imp id fun h => ⟨le_trans (zle h1) h.1, le_trans h.2 (zle h2)⟩

/-- A rounded product. -/
theorem Mid.mul {l1 h1 l2 h2 : ℤ} {a b : ℚ} (ha : Mid l1 h1 a) (hb : Mid l2 h2 b) (hl : -1000 ≤ l1 + l2)
    (hh : h1 + h2 ≤ 1000) (hle : l1 + l2 ≤ h1 + h2) : ∃ q, Fl.r64 (a * b) = .fin q ∧ Mid (l1 + l2) (h1 + h2) q := by
  by_cases h0 : a * b = 0
  · exact ⟨0, by rw [h0, r64_zero'], Or.inl rfl⟩
  · obtain ⟨a0, b0⟩ := mul_ne_zero_iff.mp h0
    obtain ⟨a1, a2⟩ := ha.resolve_left a0
    obtain ⟨b1, b2⟩ := hb.resolve_left b0
    obtain ⟨q, e, k⟩ := r64_between_abs (x := a * b) (repr64_pow hl) (repr64_pow (by omega)) (Fl.zp_pos _).le
      (zle hh)
      (by rw [abs_mul, ← zadd]; exact mul_le_mul a1 b1 (Fl.zp_pos _).le (abs_nonneg _))
      (by rw [abs_mul, ← zadd]; exact mul_le_mul a2 b2 (abs_nonneg _) (Fl.zp_pos _).le)
    exact ⟨q, e, Or.inr k⟩

/-- A rounded quotient. -/
theorem Mid.div {l1 h1 l2 h2 : ℤ} {a b : ℚ} (ha : Mid l1 h1 a) (b1 : (2 : ℚ) ^ l2 ≤ |b|) (b2 : |b| ≤ 2 ^ h2)
    (hl : -1000 ≤ l1 - h2) (hh : h1 - l2 ≤ 1000) (hle : l1 - h2 ≤ h1 - l2) :
    ∃ q, Fl.r64 (a / b) = .fin q ∧ Mid (l1 - h2) (h1 - l2) q := by
  have hb : 0 < |b| := lt_of_lt_of_le (Fl.zp_pos _) b1
  by_cases h0 : a = 0
  · exact ⟨0, by rw [h0, zero_div, r64_zero'], Or.inl rfl⟩
  · obtain ⟨a1, a2⟩ := ha.resolve_left h0
    obtain ⟨q, e, k⟩ := r64_between_abs (x := a / b) (repr64_pow hl) (repr64_pow (by omega)) (Fl.zp_pos _).le
      (zle hh)
      (by
        rw [abs_div, ← zsub]
        exact div_le_div₀ (abs_nonneg _) a1 hb b2)
      (by
        rw [abs_div, ← zsub]
        exact div_le_div₀ (Fl.zp_pos _).le a2 (Fl.zp_pos _) b1)
    exact ⟨q, e, Or.inr k⟩

/-! ## Measurements -/

/-- The square root: exact on zero, passes NaN on, and does not leave the square roots of powers of four. -/
structure SqrtMono (sq : Fl → Fl) : Prop where
  zero : sq (.fin 0) = .fin 0
  nan : sq .nan = .nan
  pos : ∀ x, 0 < x → ∃ y, sq (.fin x) = .fin y ∧
    ∀ k : ℤ, -500 ≤ k → ((2 : ℚ) ^ (2 * k) ≤ x → 2 ^ k ≤ y) ∧ (x ≤ (2 : ℚ) ^ (2 * k) → y ≤ 2 ^ k)

/-- Component of a visibility. -/
def IsComp (v : Cx) (a : ℚ) : Prop := v.re = .fin a ∨ v.im = .fin a

/-- Count and sum of squares of samples, among which the fully finite ones of `V`. -/
structure Measured (l h : ℤ) (V : Cx → Prop) (m : Nat × Fl) (s : ℚ) : Prop where
  sum : m.2 = .fin s
  nonneg : 0 ≤ s
  low : s = 0 ∨ (2 : ℚ) ^ (2 * l) ≤ s
  high : s ≤ m.1 * 2 ^ (2 * h + 1)
  has : ∀ v, V v → FullyFinite v → 0 < m.1 ∧ ∀ a, IsComp v a → ∀ j : ℤ, -500 ≤ j → (2 : ℚ) ^ j ≤ |a| →
    (2 : ℚ) ^ (2 * j) ≤ s

theorem measured_zero (l h : ℤ) : Measured l h (fun _ => False) (0, .fin 0) 0 :=
  ⟨rfl, le_refl _, Or.inl rfl, by simp, fun _ hv => hv.elim⟩

theorem Measured.weaken {l h : ℤ} {V V' : Cx → Prop} {m : Nat × Fl} {s : ℚ} (hm : Measured l h V m s)
    (hV : ∀ v, V' v → V v) : Measured l h V' m s :=
  ⟨hm.sum, hm.nonneg, hm.low, hm.high, fun v hv => hm.has v (hV v hv)⟩

theorem sq_abs_le {a : ℚ} {h : ℤ} (ha : |a| ≤ 2 ^ h) : a * a ≤ 2 ^ (2 * h) := by
  rw [← abs_mul_abs_self a, two_mul, ← zadd]
  exact mul_le_mul ha ha (abs_nonneg _) (Fl.zp_pos _).le

theorem le_sq_abs {a : ℚ} {h : ℤ} (ha : (2 : ℚ) ^ h ≤ |a|) : (2 : ℚ) ^ (2 * h) ≤ a * a := by
  rw [← abs_mul_abs_self a, two_mul, ← zadd]
  exact mul_le_mul ha ha (Fl.zp_pos _).le (abs_nonneg _)

/-- One more sample. -/
theorem Measured.include {l h : ℤ} (hl : -400 ≤ l) (hlh : l ≤ h) (hh : h ≤ 400) {V : Cx → Prop} {m : Nat × Fl} {s : ℚ}
    (hm : Measured l h V m s) (hc : m.1 < 2 ^ 52) {v : Cx}
    (hv : FullyFinite v → ∀ a, IsComp v a → Mid l h a) :
    ∃ s', Measured l h (fun w => V w ∨ w = v) (includeVis Fl.r64 m v) s' := by
  unfold includeVis
  by_cases hf : (v.re.isFinite && v.im.isFinite) = true
  · rw [if_pos hf]
    have hfull := (fullyFinite_iff v).mp hf
    have hv' := hv hfull
    obtain ⟨x, y, rfl⟩ := hfull
    have hx := hv' x (Or.inl rfl)
    have hy := hv' y (Or.inr rfl)
    -- squares
    have key : ∀ a, Mid l h a → ∃ q, Fl.r64 (a * a) = .fin q ∧ 0 ≤ q ∧ (a = 0 → q = 0) ∧ q ≤ 2 ^ (2 * h) ∧
        ∀ j : ℤ, -500 ≤ j → (2 : ℚ) ^ j ≤ |a| → (2 : ℚ) ^ (2 * j) ≤ q := by
      intro a ha
      by_cases h0 : a = 0
      · refine ⟨0, by rw [h0, mul_zero, r64_zero'], le_refl _, fun _ => rfl, (Fl.zp_pos _).le, ?_⟩
        intro j _ hj
        rw [h0, abs_zero] at hj
        exact absurd hj (not_le.mpr (Fl.zp_pos _))
      · have h1 := (ha.resolve_left h0).1
        have hsq := le_sq_abs h1
        obtain ⟨q, e, k1, k2⟩ := r64_between (repr64_pow (by omega : -1000 ≤ 2 * l))
          (repr64_pow (by omega : -1000 ≤ 2 * h)) (Fl.zp_pos _).le (zle (by omega)) hsq
          (sq_abs_le ha.le)
        refine ⟨q, e, le_trans (Fl.zp_pos _).le k1, fun h => absurd h h0, k2, ?_⟩
        intro j hj1 hj
        obtain ⟨q', e', k1', _⟩ := r64_between (repr64_pow (by omega : -1000 ≤ 2 * j))
          (repr64_pow (by omega : -1000 ≤ 2 * h)) (Fl.zp_pos _).le (zle (by omega)) (le_sq_abs hj)
          (sq_abs_le ha.le)
        rw [e] at e'
        obtain rfl := Fl.fin.inj e'
        exact k1'
    obtain ⟨qx, ex, x0, xz, xh, xl⟩ := key x hx
    obtain ⟨qy, ey, y0, yz, yh, yl⟩ := key y hy
    have hH : (1 : ℚ) * 2 ^ (2 * h + 1) = 2 ^ (2 * h) + 2 ^ (2 * h) := by
      rw [zpow_add₀ (by norm_num : (2 : ℚ) ≠ 0), zpow_one]; ring
    have hxy : qx + qy ≤ ((1 : ℕ) : ℚ) * 2 ^ (2 * h + 1) := by
      rw [Nat.cast_one, hH]; linarith
    have zero64 : Fl.Repr Fl.binary64 0 := Fl.Repr.zero _
    have big : ∀ n : ℕ, n ≤ 2 ^ 53 → ((n : ℕ) : ℚ) * 2 ^ (2 * h + 1) ≤ 2 ^ (1000 : ℤ) := by
      intro n hn
      have h1 : ((n : ℕ) : ℚ) ≤ 2 ^ (53 : ℤ) := by exact_mod_cast hn
      refine le_trans (mul_le_mul_of_nonneg_right h1 (Fl.zp_pos _).le) ?_
      rw [zadd]
      exact zle (by omega)
    obtain ⟨t, et, t0, th⟩ := r64_between zero64 (repr64_count (by omega : -1000 ≤ 2 * h + 1) (by norm_num))
      (le_refl _) (big 1 (by norm_num)) (by linarith : 0 ≤ qx + qy) hxy
    have tl : ∀ j : ℤ, -500 ≤ j → ((2 : ℚ) ^ j ≤ |x| ∨ (2 : ℚ) ^ j ≤ |y|) → (2 : ℚ) ^ (2 * j) ≤ t := by
      intro j hj hor
      have : (2 : ℚ) ^ (2 * j) ≤ qx + qy := by
        rcases hor with h | h
        · have := xl j hj h; linarith
        · have := yl j hj h; linarith
      obtain ⟨t', et', k1, _⟩ := r64_between (repr64_pow (by omega : -1000 ≤ 2 * j))
        (repr64_count (by omega : -1000 ≤ 2 * h + 1) (by norm_num)) (Fl.zp_pos _).le (big 1 (by norm_num)) this hxy
      rw [et] at et'
      obtain rfl := Fl.fin.inj et'
      exact k1
    rw [Nat.cast_one, one_mul] at th
    have hst : s + t ≤ ((m.1 + 1 : ℕ) : ℚ) * 2 ^ (2 * h + 1) := by
      have := hm.high
      push_cast
      rw [add_mul, one_mul]
      linarith
    have hc1 : m.1 + 1 ≤ 2 ^ 53 := by
      have : (2 : ℕ) ^ 53 = 2 * 2 ^ 52 := by norm_num
      omega
    have hs0 := hm.nonneg
    obtain ⟨s', es, s0, sh⟩ := r64_between zero64 (repr64_count (by omega : -1000 ≤ 2 * h + 1) hc1)
      (le_refl _) (big _ hc1) (by linarith : 0 ≤ s + t) hst
    have sl : ∀ j : ℤ, -500 ≤ j → ((2 : ℚ) ^ (2 * j) ≤ s ∨ (2 : ℚ) ^ (2 * j) ≤ t) → (2 : ℚ) ^ (2 * j) ≤ s' := by
      intro j hj hor
      have : (2 : ℚ) ^ (2 * j) ≤ s + t := by rcases hor with h | h <;> linarith
      obtain ⟨t', et', k1, _⟩ := r64_between (repr64_pow (by omega : -1000 ≤ 2 * j))
        (repr64_count (by omega : -1000 ≤ 2 * h + 1) hc1) (Fl.zp_pos _).le (big _ hc1) this hst
      rw [es] at et'
      obtain rfl := Fl.fin.inj et'
      exact k1
    refine ⟨s', ⟨?_, s0, ?_, sh, ?_⟩⟩
    · simp only [hm.sum, Fl.mul, ex, ey, Fl.add, et, es]
    · by_cases hxy0 : x = 0 ∧ y = 0
      · have t00 : t = 0 := by
          rw [xz hxy0.1, yz hxy0.2, add_zero, r64_zero'] at et
          exact (Fl.fin.inj et).symm
        rcases hm.low with h0 | h1
        · left
          rw [t00, h0, add_zero, r64_zero'] at es
          exact (Fl.fin.inj es).symm
        · exact Or.inr (sl l (by omega) (Or.inl h1))
      · right
        apply sl l (by omega)
        right
        apply tl l (by omega)
        by_cases hx0 : x = 0
        · exact Or.inr (hy.resolve_left (fun h => hxy0 ⟨hx0, h⟩)).1
        · exact Or.inl (hx.resolve_left hx0).1
    · rintro w (hw | rfl) hwf
      · refine ⟨Nat.succ_pos _, ?_⟩
        intro a ha j hj hja
        exact sl j hj (Or.inl ((hm.has w hw hwf).2 a ha j hj hja))
      · refine ⟨Nat.succ_pos _, ?_⟩
        intro a ha j hj hja
        apply sl j hj
        right
        apply tl j hj
        rcases ha with ha | ha
        · left
          obtain rfl : x = a := by simpa using ha
          exact hja
        · right
          obtain rfl : y = a := by simpa using ha
          exact hja
  · rw [if_neg hf]
    refine ⟨s, hm.sum, hm.nonneg, hm.low, hm.high, ?_⟩
    rintro w (hw | rfl) hwf
    · exact hm.has w hw hwf
    · exact absurd ((fullyFinite_iff _).mpr hwf) hf

theorem includeVis_count (RD : ℚ → Fl) (m : Nat × Fl) (v : Cx) : (includeVis RD m v).1 ≤ m.1 + 1 := by
  unfold includeVis
  split
  · exact Nat.le_refl _
  · exact Nat.le_succ _

/-- The RMS of at most `2^24` samples. -/
theorem Measured.rms {sq : Fl → Fl} (hsq : SqrtMono sq) {l h : ℤ} (hl : -400 ≤ l) (hh : h ≤ 400) (hlh : l ≤ h)
    {V : Cx → Prop} {m : Nat × Fl} {s : ℚ} (hm : Measured l h V m s) (hc : m.1 ≤ 2 ^ 24) :
    (m.1 = 0 ∧ rms Fl.r64 sq m = .nan) ∨
    (0 < m.1 ∧ ∃ y, AF.rms Fl.r64 sq m = .fin y ∧ 0 ≤ y ∧ (y = 0 ∨ (2 : ℚ) ^ (l - 13) ≤ y) ∧ y ≤ 2 ^ h ∧
      ∀ v, V v → FullyFinite v → ∀ a, IsComp v a → ∀ j : ℤ, -400 ≤ j → (2 : ℚ) ^ j ≤ |a| →
        (2 : ℚ) ^ (j - 13) ≤ y) := by
  rcases Nat.eq_zero_or_pos m.1 with h0 | hpos
  · left
    refine ⟨h0, ?_⟩
    have hs0 : s = 0 := by
      have := hm.high
      rw [h0, Nat.cast_zero, zero_mul] at this
      exact le_antisymm this hm.nonneg
    unfold AF.rms
    rw [hm.sum, h0, hs0]
    simp [Fl.div, hsq.nan]
  · right
    refine ⟨hpos, ?_⟩
    have hcq : (0 : ℚ) < ((m.1 * 2 : ℕ) : ℚ) := by exact_mod_cast (by omega : 0 < m.1 * 2)
    have hc2 : ((m.1 * 2 : ℕ) : ℚ) ≤ 2 ^ (25 : ℤ) := by
      have : m.1 * 2 ≤ 2 ^ 25 := by
        have : (2 : ℕ) ^ 25 = 2 ^ 24 * 2 := by norm_num
        omega
      exact_mod_cast this
    have hup : s / ((m.1 * 2 : ℕ) : ℚ) ≤ 2 ^ (2 * h) := by
      rw [div_le_iff₀ hcq]
      refine le_trans hm.high (le_of_eq ?_)
      rw [zpow_add₀ (by norm_num : (2 : ℚ) ≠ 0), zpow_one]
      push_cast
      ring
    have hlow : ∀ j : ℤ, (2 : ℚ) ^ (2 * j) ≤ s → (2 : ℚ) ^ (2 * (j - 13)) ≤ s / ((m.1 * 2 : ℕ) : ℚ) := by
      intro j hj
      rw [le_div_iff₀ hcq]
      refine le_trans (mul_le_mul_of_nonneg_left hc2 (Fl.zp_pos _).le) (le_trans ?_ hj)
      rw [zadd]
      exact zle (by omega)
    unfold AF.rms
    rw [hm.sum]
    simp only [Fl.div, if_neg hcq.ne']
    rcases hm.low with h0 | hs1
    · refine ⟨0, by rw [h0, zero_div, r64_zero', hsq.zero], le_refl _, Or.inl rfl, (Fl.zp_pos _).le, ?_⟩
      intro v hv hf a ha j hj hja
      have := (hm.has v hv hf).2 a ha j (by omega) hja
      rw [h0] at this
      exact absurd this (not_le.mpr (Fl.zp_pos _))
    · have hlo : ∀ j : ℤ, -413 ≤ j - 13 → (2 : ℚ) ^ (2 * j) ≤ s → ∃ q, Fl.r64 (s / ((m.1 * 2 : ℕ) : ℚ)) = .fin q ∧
          (2 : ℚ) ^ (2 * (j - 13)) ≤ q ∧ q ≤ 2 ^ (2 * h) := fun j hj hs =>
        r64_between (repr64_pow (by omega)) (repr64_pow (by omega)) (Fl.zp_pos _).le (zle (by omega))
          (hlow j hs) hup
      obtain ⟨q, eq, q1, q2⟩ := hlo l (by omega) hs1
      obtain ⟨y, ey, hy⟩ := hsq.pos q (lt_of_lt_of_le (Fl.zp_pos _) q1)
      rw [eq, ey]
      refine ⟨y, rfl, le_trans (Fl.zp_pos _).le ((hy (l - 13) (by omega)).1 q1), Or.inr ((hy (l - 13) (by omega)).1 q1), (hy h (by omega)).2 q2, ?_⟩
      intro v hv hf a ha j hj hja
      obtain ⟨q', eq', q1', _⟩ := hlo j (by omega) ((hm.has v hv hf).2 a ha j (by omega) hja)
      rw [eq] at eq'
      obtain rfl := Fl.fin.inj eq'
      exact (hy (j - 13) (by omega)).1 q1'

/-! ## One iteration of the antenna values -/

/-- `nextRMS[i] * 0.8 + rms[i] * 0.2`. -/
def mix (RD : ℚ → Fl) (x old : Fl) : Fl :=
  Fl.add RD (Fl.mul RD x (RD (4 / 5))) (Fl.mul RD old (RD (1 / 5)))

/-- Largest of `y 0 … y (k-1)` and zero. -/
def maxTo (y : Nat → Fl) : Nat → Fl
  | 0 => .fin 0
  | k + 1 => Fl.stdMax (y k) (maxTo y k)

theorem rmsIterate_spec {RD : ℚ → Fl} {nAnt : Nat} {mat : Nat → Nat → Option Fl} {st : RmsState}
    (hl : st.ant.len = nAnt) {S : Nat → Fl × Fl} (hS : ∀ i, i < nAnt → nextSums RD nAnt mat st.ant i = some (S i)) :
    ∃ st', rmsIterate RD nAnt mat st = some st' ∧ st'.ant.len = nAnt ∧
      ∀ i, i < nAnt → st'.ant.get i =
        if Fl.lt (mix RD (nextRms RD (S i)) (st.ant.get i))
            (Fl.mul RD (maxTo (fun i => mix RD (nextRms RD (S i)) (st.ant.get i)) nAnt) (RD (1 / 100000))) then .fin 0
        else mix RD (nextRms RD (S i)) (st.ant.get i) := by
  obtain ⟨next, e1, n1, n2⟩ := forRange_inv nAnt
    (fun i (next : Buf Fl) => (nextSums RD nAnt mat st.ant i).bind fun s =>
      next.wr i (nextRms RD s)) ⟨nAnt, fun _ => .fin 0⟩
    (fun k b => b.len = nAnt ∧ ∀ i, i < k → b.get i = nextRms RD (S i)) ⟨rfl, fun _ h => by omega⟩ (by
      rintro i b hi ⟨h1, h2⟩
      rw [hS i hi, Option.bind_some, Buf.wr_some (by omega)]
      refine ⟨_, rfl, h1, ?_⟩
      intro j hj
      by_cases hji : j = i
      · simp only [hji, if_true]
      · simp only [hji, if_false]
        exact h2 j (by omega))
  obtain ⟨s, e2, n3, n4, _, n5⟩ := forRange_inv nAnt
    (fun i (s : Buf Fl × Fl) => (next.rd i).bind fun x => (s.1.rd i).bind fun old =>
      (s.1.wr i (Fl.add RD (Fl.mul RD x (RD (4 / 5))) (Fl.mul RD old (RD (1 / 5))))).map fun ant =>
        (ant, Fl.stdMax (Fl.add RD (Fl.mul RD x (RD (4 / 5))) (Fl.mul RD old (RD (1 / 5)))) s.2))
    (st.ant, .fin 0) (fun k s => s.1.len = nAnt ∧
      (∀ i, i < k → s.1.get i = mix RD (nextRms RD (S i)) (st.ant.get i)) ∧
      (∀ i, k ≤ i → s.1.get i = st.ant.get i) ∧
      s.2 = maxTo (fun i => mix RD (nextRms RD (S i)) (st.ant.get i)) k)
    ⟨hl, fun _ h => by omega, fun _ _ => rfl, rfl⟩ (by
      rintro i s hi ⟨h1, h2, h3, h4⟩
      rw [Buf.rd_some (by omega), Option.bind_some, Buf.rd_some (by omega),
        Option.bind_some, Buf.wr_some (by omega), n2 i hi, h3 i (Nat.le_refl _), h4]
      refine ⟨_, rfl, h1, ?_, ?_, rfl⟩
      · intro j hj
        by_cases hji : j = i
        · simp only [hji, if_true]
          rfl
        · simp only [hji, if_false]
          exact h2 j (by omega)
      · intro j hj
        have hji : j ≠ i := by omega
        simp only [hji, if_false]
        exact h3 j (by omega))
  obtain ⟨t, e3, n6, n7, _⟩ := forRange_inv nAnt
    (fun i (t : RmsState) => (t.ant.rd i).bind fun x => (next.rd i).bind fun nx =>
      (t.ant.wr i (if Fl.lt x (Fl.mul RD s.2 (RD (1 / 100000))) then .fin 0 else x)).map
        fun ant => (⟨ant, Fl.stdMax t.precision (Fl.div RD (Fl.abs (Fl.sub RD
          (if Fl.lt x (Fl.mul RD s.2 (RD (1 / 100000))) then .fin 0 else x) nx)) s.2)⟩
          : RmsState))
    ⟨s.1, .fin 0⟩ (fun k t => t.ant.len = nAnt ∧
      (∀ i, i < k → t.ant.get i = if Fl.lt (s.1.get i) (Fl.mul RD s.2 (RD (1 / 100000))) then .fin 0
        else s.1.get i) ∧ ∀ i, k ≤ i → t.ant.get i = s.1.get i)
    ⟨n3, fun _ h => by omega, fun _ _ => rfl⟩ (by
      rintro i t hi ⟨h1, h2, h3⟩
      rw [Buf.rd_some (by omega), Option.bind_some, Buf.rd_some (by omega),
        Option.bind_some, Buf.wr_some (by omega), h3 i (Nat.le_refl _)]
      refine ⟨_, rfl, h1, ?_, ?_⟩
      · intro j hj
        by_cases hji : j = i
        · simp only [hji, if_true]
        · simp only [hji, if_false]
          exact h2 j (by omega)
      · intro j hj
        have hji : j ≠ i := by omega
        simp only [hji, if_false]
        exact h3 j (by omega))
  refine ⟨t, ?_, n6, ?_⟩
  · unfold rmsIterate
    rw [e1, Option.bind_some, e2, Option.bind_some]
    exact e3
  · intro i hi
    rw [n7 i hi, n4 i hi, n5]

theorem maxTo_spec {y : Nat → Fl} {z : Nat → ℚ} {n : Nat} (hy : ∀ i, i < n → y i = .fin (z i)) :
    ∃ X, maxTo y n = .fin X ∧ 0 ≤ X ∧ (∀ i, i < n → z i ≤ X) ∧ (X = 0 ∨ ∃ i, i < n ∧ z i = X) := by
  induction n with
  | zero => exact ⟨0, rfl, le_refl _, fun _ h => by omega, Or.inl rfl⟩
  | succ n ih =>
    obtain ⟨X, e, h0, h1, h2⟩ := ih fun i hi => hy i (by omega)
    have ey := hy n (by omega)
    unfold maxTo
    rw [e, ey]
    unfold Fl.stdMax
    simp only [Fl.lt, decide_eq_true_eq]
    split
    · next hlt =>
      refine ⟨X, rfl, h0, ?_, h2.imp id fun ⟨i, hi, ei⟩ => ⟨i, by omega, ei⟩⟩
      intro i hi
      by_cases hin : i = n
      · rw [hin]; exact hlt.le
      · exact h1 i (by omega)
    · next hlt =>
      refine ⟨z n, rfl, le_trans h0 (not_lt.mp hlt), ?_, Or.inr ⟨n, by omega, rfl⟩⟩
      intro i hi
      by_cases hin : i = n
      · rw [hin]
      · exact le_trans (h1 i (by omega)) (not_lt.mp hlt)

/-! ## The constants -/

theorem r64_four_fifths : Fl.r64 (4 / 5) = .fin (3602879701896397 / 4503599627370496) := by decide +kernel

theorem r64_one_fifth : Fl.r64 (1 / 5) = .fin (3602879701896397 / 18014398509481984) := by decide +kernel

theorem r64_floor : Fl.r64 (1 / 100000) = .fin (5902958103587057 / 590295810358705651712) := by decide +kernel

theorem mix_spec {x old : ℚ} {M : ℤ} (hM : -900 ≤ M) (hM' : M ≤ 900) (x0 : 0 ≤ x) (x1 : x ≤ 2 ^ M) (o0 : 0 ≤ old)
    (o1 : old ≤ 2 ^ M) : ∃ q, mix Fl.r64 (.fin x) (.fin old) = .fin q ∧ 0 ≤ q ∧ q ≤ 2 ^ M ∧
      (∀ j : ℤ, -900 ≤ j → (2 : ℚ) ^ j ≤ x → (2 : ℚ) ^ (j - 1) ≤ q) ∧
      (∀ j : ℤ, -900 ≤ j → (2 : ℚ) ^ j ≤ old → (2 : ℚ) ^ (j - 3) ≤ q) ∧ (x = 0 → old = 0 → q = 0) := by
  have zero64 : Fl.Repr Fl.binary64 0 := Fl.Repr.zero _
  have hpow := Fl.zp_pos M
  have rep : ∀ (n : ℕ) (k : ℤ), n ≤ 2 ^ 53 → -60 ≤ k → Fl.Repr Fl.binary64 ((n : ℚ) * 2 ^ (M + k)) :=
    fun n k hn hk => repr64_count (by omega) hn
  have e52 : ((3602879701896397 : ℕ) : ℚ) * 2 ^ (M + -52) = 2 ^ M * (3602879701896397 / 4503599627370496) := by
    rw [← zadd]; norm_num; ring
  have e54 : ((3602879701896397 : ℕ) : ℚ) * 2 ^ (M + -54) = 2 ^ M * (3602879701896397 / 18014398509481984) := by
    rw [← zadd]; norm_num; ring
  have big : (2 : ℚ) ^ M ≤ 2 ^ (1000 : ℤ) := zle (by omega)
  obtain ⟨a, ea, a0, a1⟩ := r64_between zero64 (rep 3602879701896397 (-52) (by norm_num) (by norm_num)) (le_refl _)
    (by rw [e52]; exact le_trans (mul_le_of_le_one_right hpow.le (by norm_num)) big) (by positivity : 0 ≤ x * (3602879701896397 / 4503599627370496))
    (by rw [e52]; exact mul_le_mul_of_nonneg_right x1 (by norm_num))
  obtain ⟨b, eb, b0, b1⟩ := r64_between zero64 (rep 3602879701896397 (-54) (by norm_num) (by norm_num)) (le_refl _)
    (by rw [e54]; exact le_trans (mul_le_of_le_one_right hpow.le (by norm_num)) big) (by positivity : 0 ≤ old * (3602879701896397 / 18014398509481984))
    (by rw [e54]; exact mul_le_mul_of_nonneg_right o1 (by norm_num))
  rw [e52] at a1
  rw [e54] at b1
  have hsum : a + b ≤ 2 ^ M + 2 ^ M * 2 ^ (-(Fl.binary64.p : ℤ) - 1) := by
    have : (2 : ℚ) ^ (-(Fl.binary64.p : ℤ) - 1) = 1 / 18014398509481984 := by
      show (2 : ℚ) ^ (-((53 : ℕ) : ℤ) - 1) = _
      norm_num
    rw [this]
    have := add_le_add a1 b1
    refine le_trans this (le_of_eq ?_)
    ring
  have hq := Fl.rnd_le_of_le_slack (f := Fl.binary64) (by decide) hpow (repr64_pow (by omega)) hsum
  have hq0 : 0 ≤ Fl.rnd Fl.binary64 (a + b) := by
    have := Fl.rnd_mono (f := Fl.binary64) (by decide) (by linarith : (0 : ℚ) ≤ a + b)
    rwa [Fl.rnd_of_repr (by decide) zero64] at this
  have eq : Fl.r64 (a + b) = .fin (Fl.rnd Fl.binary64 (a + b)) := by
    unfold Fl.r64 Fl.round
    rw [if_pos]
    rw [abs_of_nonneg hq0]
    exact lt_of_le_of_lt (le_trans hq big) (zpow_lt_zpow_right₀ (by norm_num) (by decide))
  have low : ∀ j : ℤ, -903 ≤ j → (2 : ℚ) ^ j ≤ a ∨ (2 : ℚ) ^ j ≤ b → (2 : ℚ) ^ j ≤ Fl.rnd Fl.binary64 (a + b) := by
    intro j hj h
    have h1 : (2 : ℚ) ^ j ≤ a + b := by rcases h with h | h <;> linarith
    have := Fl.rnd_mono (f := Fl.binary64) (by decide) h1
    rwa [Fl.rnd_of_repr (by decide) (repr64_pow (by omega))] at this
  have lowr : ∀ {z w : ℚ} {j : ℤ}, -903 ≤ j → (2 : ℚ) ^ j ≤ z → Fl.r64 z = .fin w → (2 : ℚ) ^ j ≤ w := by
    intro z w j hj hz hw
    have := Fl.rnd_mono (f := Fl.binary64) (by decide) hz
    rw [Fl.rnd_of_repr (by decide) (repr64_pow (by omega))] at this
    unfold Fl.r64 Fl.round at hw
    split at hw
    · rwa [Fl.fin.inj hw] at this
    · simp at hw
  refine ⟨_, ?_, hq0, hq, ?_, ?_, ?_⟩
  · unfold mix
    rw [r64_four_fifths, r64_one_fifth]
    simp only [Fl.mul, ea, eb, Fl.add, eq]
  · intro j hj hx
    apply low _ (by omega)
    left
    refine lowr (by omega) ?_ ea
    rw [← zsub]
    have := Fl.zp_pos j
    rw [zpow_one]
    linarith
  · intro j hj ho
    apply low _ (by omega)
    right
    refine lowr (by omega) ?_ eb
    rw [← zsub]
    have := Fl.zp_pos j
    have : (2 : ℚ) ^ (3 : ℤ) = 8 := by norm_num
    rw [this]
    linarith
  · intro hx ho
    rw [hx, zero_mul, r64_zero'] at ea
    rw [ho, zero_mul, r64_zero'] at eb
    rw [← Fl.fin.inj ea, ← Fl.fin.inj eb, add_zero]
    exact Fl.rnd_of_repr (by decide) zero64

/-! ## Sums of a row of the matrix -/

/-- The elements of the matrix: NaN, zero, or between `2^-93` and `2^14`. -/
def MatMid (nAnt : Nat) (mat : Nat → Nat → Option Fl) : Prop :=
  ∀ i j, i < nAnt → j < nAnt → ∃ x, mat i j = some x ∧
    (x = .nan ∨ ∃ y, x = .fin y ∧ 0 ≤ y ∧ (y = 0 ∨ (2 : ℚ) ^ (-93 : ℤ) ≤ y) ∧ y ≤ 2 ^ (14 : ℤ))

/-- A rounded sum of non-negative numbers. -/
theorem add_count {lo hi : ℤ} (hlo : -900 ≤ lo) (hlohi : lo ≤ hi) (hhi : hi ≤ 900) {j : Nat} (hj : j < 2 ^ 52) {a y : ℚ} (a0 : 0 ≤ a)
    (a1 : a = 0 ∨ (2 : ℚ) ^ lo ≤ a) (a2 : a ≤ j * 2 ^ hi) (y0 : 0 ≤ y) (y1 : y = 0 ∨ (2 : ℚ) ^ lo ≤ y) (y2 : y ≤ 2 ^ hi) :
    ∃ q, Fl.r64 (a + y) = .fin q ∧ 0 ≤ q ∧ (q = 0 ∨ (2 : ℚ) ^ lo ≤ q) ∧ q ≤ (j + 1 : ℕ) * 2 ^ hi ∧
      (q = 0 → a = 0 ∧ y = 0) := by
  have zero64 : Fl.Repr Fl.binary64 0 := Fl.Repr.zero _
  have hj1 : j + 1 ≤ 2 ^ 53 := by
    have : (2 : ℕ) ^ 53 = 2 * 2 ^ 52 := by norm_num
    omega
  have hup : a + y ≤ ((j + 1 : ℕ) : ℚ) * 2 ^ hi := by
    push_cast
    rw [add_mul, one_mul]
    exact add_le_add a2 y2
  have big : ((j + 1 : ℕ) : ℚ) * 2 ^ hi ≤ 2 ^ (1000 : ℤ) := by
    have h1 : ((j + 1 : ℕ) : ℚ) ≤ 2 ^ (53 : ℤ) := by exact_mod_cast hj1
    refine le_trans (mul_le_mul_of_nonneg_right h1 (Fl.zp_pos _).le) ?_
    rw [zadd]
    exact zle (by omega)
  by_cases h0 : a = 0 ∧ y = 0
  · refine ⟨0, by rw [h0.1, h0.2, add_zero, r64_zero'], le_refl _, Or.inl rfl, ?_, fun _ => h0⟩
    have := Fl.zp_pos hi
    positivity
  · have hge : (2 : ℚ) ^ lo ≤ a + y := by
      rcases a1 with ha | ha
      · rcases y1 with hy | hy
        · exact absurd ⟨ha, hy⟩ h0
        · linarith
      · linarith
    obtain ⟨q, e, k1, k2⟩ := r64_between (repr64_pow (by omega)) (repr64_count (by omega) hj1) (Fl.zp_pos _).le big
      hge hup
    exact ⟨q, e, le_trans (Fl.zp_pos _).le k1, Or.inr k1, k2, fun h => by
      rw [h] at k1
      exact absurd k1 (not_le.mpr (Fl.zp_pos _))⟩

/-- Bounds `lo`, `hi` for the values of the antennas. -/
def AntMid (nAnt : Nat) (lo hi : ℤ) (ant : Buf Fl) (w : Nat → ℚ) : Prop :=
  ant.len = nAnt ∧ ∀ a, a < nAnt → ant.get a = .fin (w a) ∧ 0 ≤ w a ∧ (w a = 0 ∨ (2 : ℚ) ^ lo ≤ w a) ∧ w a ≤ 2 ^ hi

theorem nextSums_spec {nAnt : Nat} (hn : nAnt ≤ 2 ^ 14) {mat : Nat → Nat → Option Fl} (hM : MatMid nAnt mat)
    {lo hi : ℤ} (hlo : -900 ≤ lo) (hlohi : lo ≤ hi) (hhi : hi ≤ 800) {ant : Buf Fl} {w : Nat → ℚ}
    (ha : AntMid nAnt lo hi ant w) {i : Nat} (hi' : i < nAnt) :
    ∃ a b, nextSums Fl.r64 nAnt mat ant i = some (.fin a, .fin b) ∧ 0 ≤ a ∧ 0 ≤ b ∧
      (a = 0 ∨ (2 : ℚ) ^ (-93 : ℤ) ≤ a) ∧ a ≤ 2 ^ (28 : ℤ) ∧ (b = 0 ∨ (2 : ℚ) ^ lo ≤ b) ∧ b ≤ 2 ^ (hi + 14) ∧
      (b = 0 → a = 0) ∧
      (a = 0 ↔ ∀ j, j < nAnt → j ≠ i → w j ≠ 0 → ∀ y, mat i j = some (.fin y) → y = 0) := by
  have hn' : nAnt < 2 ^ 52 := lt_of_le_of_lt hn (by norm_num)
  obtain ⟨s, e, a, b, e1, e2, a0, b0, a1, a2, b1, b2, ab, hz⟩ := forRange_inv nAnt
    (fun j (s : Fl × Fl) => (ant.rd j).bind fun w =>
      if i ≠ j ∧ Fl.eq w (.fin 0) = false then
        (mat i j).map fun x => if x.isFinite then (Fl.add Fl.r64 s.1 x, Fl.add Fl.r64 s.2 w) else s
      else some s) (.fin 0, .fin 0)
    (fun k s => ∃ a b, s.1 = .fin a ∧ s.2 = .fin b ∧ 0 ≤ a ∧ 0 ≤ b ∧ (a = 0 ∨ (2 : ℚ) ^ (-93 : ℤ) ≤ a) ∧
      a ≤ k * 2 ^ (14 : ℤ) ∧ (b = 0 ∨ (2 : ℚ) ^ lo ≤ b) ∧ b ≤ k * 2 ^ hi ∧ (b = 0 → a = 0) ∧
      (a = 0 ↔ ∀ j, j < k → j ≠ i → w j ≠ 0 → ∀ y, mat i j = some (.fin y) → y = 0))
    ⟨0, 0, rfl, rfl, le_refl _, le_refl _, Or.inl rfl, by simp, Or.inl rfl, by simp, fun _ => rfl,
      ⟨fun _ _ h => by omega, fun _ => rfl⟩⟩ (by
      rintro j s hj ⟨a, b, e1, e2, a0, b0, a1, a2, b1, b2, ab, hz⟩
      obtain ⟨ew, w0, w1, w2⟩ := ha.2 j hj
      rw [Buf.rd_some (by rw [ha.1]; exact hj), Option.bind_some, ew]
      have stay : ∀ {s : Fl × Fl}, s.1 = .fin a → s.2 = .fin b →
          (∀ y, j ≠ i → w j ≠ 0 → mat i j = some (.fin y) → y = 0) → ∃ a b, s.1 = .fin a ∧ s.2 = .fin b ∧ 0 ≤ a ∧ 0 ≤ b ∧ (a = 0 ∨ (2 : ℚ) ^ (-93 : ℤ) ≤ a) ∧
          a ≤ (j + 1 : ℕ) * 2 ^ (14 : ℤ) ∧ (b = 0 ∨ (2 : ℚ) ^ lo ≤ b) ∧ b ≤ (j + 1 : ℕ) * 2 ^ hi ∧ (b = 0 → a = 0) ∧
          (a = 0 ↔ ∀ j', j' < j + 1 → j' ≠ i → w j' ≠ 0 → ∀ y, mat i j' = some (.fin y) → y = 0) := by
        intro s e1 e2 hn
        refine ⟨a, b, e1, e2, a0, b0, a1, ?_, b1, ?_, ab, hz.trans ⟨fun h j' hj' => ?_, fun h j' hj' => h j' (by omega)⟩⟩
        · refine le_trans a2 (mul_le_mul_of_nonneg_right ?_ (Fl.zp_pos _).le)
          push_cast; linarith
        · refine le_trans b2 (mul_le_mul_of_nonneg_right ?_ (Fl.zp_pos _).le)
          push_cast; linarith
        · by_cases hjj : j' = j
          · subst hjj
            exact fun h1 h2 y hy => hn y h1 h2 hy
          · exact h j' (by omega)
      split
      · next hcond =>
        obtain ⟨hij, hw⟩ := hcond
        have hw0 : w j ≠ 0 := by simpa [Fl.eq] using hw
        obtain ⟨x, ex, hx⟩ := hM i j hi' hj
        rw [ex]
        refine ⟨_, rfl, ?_⟩
        rcases hx with rfl | ⟨y, rfl, y0, y1, y2⟩
        · simp only [Fl.isFinite, Bool.false_eq_true, if_false]
          exact stay e1 e2 (fun y _ _ hy => by rw [ex] at hy; simp at hy)
        · simp only [Fl.isFinite, if_true]
          obtain ⟨q, eq, q0, q1, q2, qz⟩ := add_count (lo := -93) (hi := 14) (by norm_num) (by norm_num) (by norm_num)
            (j := j) (by omega) a0 a1 a2 y0 y1 y2
          obtain ⟨q', eq', q0', q1', q2', qz'⟩ := add_count (lo := lo) (hi := hi) hlo hlohi (by omega)
            (j := j) (by omega) b0 b1 b2 w0 w1 w2
          refine ⟨q, q', ?_, ?_, q0, q0', q1, q2, q1', q2', fun h => absurd (qz' h).2 hw0, ?_⟩
          · simp only [e1, Fl.add, eq]
          · simp only [e2, Fl.add, eq']
          · constructor
            · intro h j' hj' h1 h2 y' hy'
              obtain ⟨z1, z2⟩ := qz h
              by_cases hjj : j' = j
              · subst hjj
                rw [ex] at hy'
                have : y = y' := by simpa using hy'
                rw [← this, z2]
              · exact hz.mp z1 j' (by omega) h1 h2 y' hy'
            · intro h
              have z1 := hz.mpr fun j' hj' => h j' (by omega)
              have z2 := h j (by omega) hij.symm hw0 y ex
              rw [z1, z2, add_zero, r64_zero'] at eq
              exact (Fl.fin.inj eq).symm
      · next hcond =>
        refine ⟨s, rfl, stay e1 e2 ?_⟩
        intro y h1 h2
        exact absurd ⟨h1.symm, by simpa [Fl.eq] using h2⟩ hcond)
  have hq : ((nAnt : ℕ) : ℚ) ≤ 2 ^ (14 : ℤ) := by exact_mod_cast hn
  obtain ⟨s1, s2⟩ := s
  simp only at e1 e2
  subst e1 e2
  refine ⟨a, b, e, a0, b0, a1, ?_, b1, ?_, ab, hz⟩
  · refine le_trans a2 (le_trans (mul_le_mul_of_nonneg_right hq (Fl.zp_pos _).le) ?_)
    rw [zadd]
    exact zle (by norm_num)
  · refine le_trans b2 (le_trans (mul_le_mul_of_nonneg_right hq (Fl.zp_pos _).le) ?_)
    rw [zadd]
    exact zle (by omega)

/-! ## The iteration -/

/-- The largest antenna value is in `[2^(k-1), 2^k]`, and the others are zero or not much smaller. -/
def Good (nAnt : Nat) (k : ℤ) (ant : Buf Fl) : Prop :=
  ∃ w, AntMid nAnt (k - 18) k ant w ∧ -56 ≤ k ∧ k ≤ 102 ∧ ∃ a, a < nAnt ∧ (2 : ℚ) ^ (k - 1) ≤ w a

/-- Every baseline of an antenna with a non-zero value has RMS zero or NaN. -/
def Dead (nAnt : Nat) (mat : Nat → Nat → Option Fl) (ant : Buf Fl) : Prop :=
  ∃ w : Nat → ℚ, ant.len = nAnt ∧ (∀ a, a < nAnt → ant.get a = .fin (w a) ∧ 0 ≤ w a ∧ w a ≤ 2 ^ (102 : ℤ)) ∧
    ∀ i j, i < nAnt → j < nAnt → j ≠ i → w j ≠ 0 → ∀ y, mat i j = some (.fin y) → y = 0

/-- A positive number lies between two powers of two. -/
theorem exists_exp {x : ℚ} (hx : 0 < x) : ∃ k : ℤ, (2 : ℚ) ^ (k - 1) < x ∧ x ≤ 2 ^ k := by
  refine ⟨Int.clog 2 x, ?_, ?_⟩
  · exact_mod_cast Int.zpow_pred_clog_lt_self (R := ℚ) (b := 2) (by norm_num) hx
  · exact_mod_cast Int.self_le_zpow_clog (R := ℚ) (b := 2) (by norm_num) x

theorem exp_lt {i j : ℤ} (h : (2 : ℚ) ^ i < 2 ^ j) : i < j := (zpow_lt_zpow_iff_right₀ (by norm_num)).mp h

theorem exp_le {i j : ℤ} (h : (2 : ℚ) ^ i ≤ 2 ^ j) : i ≤ j := (zpow_le_zpow_iff_right₀ (by norm_num)).mp h

theorem Good.step {nAnt : Nat} (hn : nAnt ≤ 2 ^ 14) {mat : Nat → Nat → Option Fl} (hM : MatMid nAnt mat) {k : ℤ}
    {st : RmsState} (hg : Good nAnt k st.ant) :
    ∃ st', rmsIterate Fl.r64 nAnt mat st = some st' ∧ ((∃ k', Good nAnt k' st'.ant) ∨ Dead nAnt mat st'.ant) := by
  obtain ⟨w, hw, hk1, hk2, a0, ha0, hbig⟩ := hg
  -- sums
  have hsum : ∀ i, i < nAnt → ∃ x : ℚ, ∃ s, nextSums Fl.r64 nAnt mat st.ant i = some s ∧ nextRms Fl.r64 s = .fin x ∧ 0 ≤ x ∧
      (x = 0 ∨ (2 : ℚ) ^ (-107 - k) ≤ x) ∧ x ≤ 2 ^ (46 - k) ∧
      (x = 0 → ∀ j, j < nAnt → j ≠ i → w j ≠ 0 → ∀ y, mat i j = some (.fin y) → y = 0) := by
    intro i hi
    obtain ⟨a, b, e, p0, q0, p1, p2, q1, q2, pq, hz⟩ := nextSums_spec hn hM (by omega) (by omega) (by omega) hw hi
    by_cases hb : b = 0
    · refine ⟨0, _, e, ?_, le_refl _, Or.inl rfl, (Fl.zp_pos _).le, fun _ => hz.mp (pq hb)⟩
      simp [nextRms, Fl.eq, hb]
    · have hb1 := q1.resolve_left hb
      have hm : Mid (-93) 28 a := by
        rcases p1 with h | h
        · exact Or.inl h
        · exact Or.inr (by rw [abs_of_nonneg p0]; exact ⟨h, p2⟩)
      obtain ⟨q, eq, hq⟩ := hm.div (b := b) (l2 := k - 18) (h2 := k + 14) (by rw [abs_of_nonneg q0]; exact hb1)
        (by rw [abs_of_nonneg q0]; exact q2) (by omega) (by omega) (by omega)
      have hq0 : 0 ≤ q := by
        have := Fl.rnd_mono (f := Fl.binary64) (by decide) (div_nonneg p0 q0)
        rw [Fl.rnd_of_repr (by decide) (Fl.Repr.zero _)] at this
        unfold Fl.r64 Fl.round at eq
        split at eq
        · rwa [Fl.fin.inj eq] at this
        · simp at eq
      refine ⟨q, _, e, ?_, hq0, ?_, ?_, ?_⟩
      · simp [nextRms, Fl.eq, hb, Fl.div, eq]
      · rcases hq with h | h
        · exact Or.inl h
        · right
          have := h.1
          rw [abs_of_nonneg hq0] at this
          exact le_trans (zle (by omega)) this
      · have := hq.le
        rw [abs_of_nonneg hq0] at this
        exact le_trans this (zle (by omega))
      · intro h0
        apply hz.mp
        by_contra hane
        have h1 := p1.resolve_left hane
        obtain ⟨q', eq', k1, _⟩ := r64_between_abs (x := a / b) (a := (2 : ℚ) ^ (-93 - (k + 14))) (b := (2 : ℚ) ^ (28 - (k - 18)))
          (repr64_pow (by omega)) (repr64_pow (by omega)) (Fl.zp_pos _).le (zle (by omega))
          (by rw [abs_div, abs_of_nonneg p0, abs_of_nonneg q0, ← zsub]
              exact div_le_div₀ p0 h1 (lt_of_lt_of_le (Fl.zp_pos _) hb1) q2)
          (by rw [abs_div, abs_of_nonneg p0, abs_of_nonneg q0, ← zsub]
              exact div_le_div₀ (Fl.zp_pos _).le p2 (Fl.zp_pos _) hb1)
        rw [eq] at eq'
        rw [← Fl.fin.inj eq', h0, abs_zero] at k1
        exact absurd k1 (not_le.mpr (Fl.zp_pos _))
  have : Nonempty Fl := ⟨.nan⟩
  choose! x S hS hx hx0 hx1 hx2 hxz using hsum
  obtain ⟨st', e, l1, hst⟩ := rmsIterate_spec (RD := Fl.r64) hw.1 hS
  refine ⟨st', e, ?_⟩
  -- mixes
  have hmix : ∀ i, i < nAnt → ∃ z, mix Fl.r64 (nextRms Fl.r64 (S i)) (st.ant.get i) = .fin z ∧ 0 ≤ z ∧
      z ≤ 2 ^ (max (46 - k) k) ∧ (∀ j : ℤ, -900 ≤ j → (2 : ℚ) ^ j ≤ x i → (2 : ℚ) ^ (j - 1) ≤ z) ∧
      (∀ j : ℤ, -900 ≤ j → (2 : ℚ) ^ j ≤ w i → (2 : ℚ) ^ (j - 3) ≤ z) ∧ (x i = 0 → w i = 0 → z = 0) := by
    intro i hi
    obtain ⟨ew, w0, _, w2⟩ := hw.2 i hi
    rw [hx i hi, ew]
    exact mix_spec (by omega) (by omega) (hx0 i hi) (le_trans (hx2 i hi) (zle (le_max_left _ _))) w0
      (le_trans w2 (zle (le_max_right _ _)))
  choose! z hz z0 z1 zx zw zz using hmix
  obtain ⟨X, eX, X0, X1, X2⟩ := maxTo_spec (y := fun i => mix Fl.r64 (nextRms Fl.r64 (S i)) (st.ant.get i)) hz
  have hXbig : (2 : ℚ) ^ (k - 4) ≤ X := by
    have := zw a0 ha0 (k - 1) (by omega) hbig
    exact le_trans (le_trans (zle (by omega)) this) (X1 a0 ha0)
  have hXpos : 0 < X := lt_of_lt_of_le (Fl.zp_pos _) hXbig
  obtain ⟨im, him, eim⟩ := X2.resolve_left hXpos.ne'
  have hXhi : X ≤ 2 ^ (max (46 - k) k) := eim ▸ z1 im him
  obtain ⟨k', k1', k2⟩ := exists_exp hXpos
  have k1 := k1'.le
  have hk'hi : k' ≤ 102 := by
    have := exp_lt (lt_of_lt_of_le k1' hXhi)
    omega
  have hk'lo : k - 4 ≤ k' := exp_le (le_trans hXbig k2)
  -- threshold
  have hthr : ∃ c, Fl.mul Fl.r64 (.fin X) (Fl.r64 (1 / 100000)) = .fin c ∧ (2 : ℚ) ^ (k' - 18) ≤ c ∧ c ≤ X := by
    rw [r64_floor]
    simp only [Fl.mul]
    obtain ⟨c, ec, c1, _⟩ := r64_between (x := X * (5902958103587057 / 590295810358705651712))
      (a := (2 : ℚ) ^ (k' - 18)) (b := (2 : ℚ) ^ (k' - 1)) (repr64_pow (by omega)) (repr64_pow (by omega)) (Fl.zp_pos _).le
      (zle (by omega))
      (by
        have : (2 : ℚ) ^ (k' - 18) = 2 ^ (k' - 1) * (1 / 131072) := by
          rw [show k' - 18 = (k' - 1) + (-17) by ring, ← zadd]; norm_num
        rw [this]
        exact mul_le_mul k1 (by norm_num) (by norm_num) hXpos.le)
      (by
        have : (2 : ℚ) ^ (k' - 1) = 2 ^ k' * (1 / 2) := by
          rw [show k' - 1 = k' + (-1) by ring, ← zadd]; norm_num
        rw [this]
        exact mul_le_mul k2 (by norm_num) (by norm_num) (Fl.zp_pos _).le)
    exact ⟨c, ec, c1, by linarith⟩
  obtain ⟨c, ec, c1, c2⟩ := hthr
  have hfin : ∀ i, i < nAnt → st'.ant.get i = .fin (if z i < c then 0 else z i) := by
    intro i hi
    rw [hst i hi, eX, ec, hz i hi]
    simp only [Fl.lt, decide_eq_true_eq]
    split <;> rfl
  by_cases hall : ∀ i, i < nAnt → x i = 0
  · right
    refine ⟨fun i => if z i < c then 0 else z i, l1, ?_, ?_⟩
    · intro i hi
      simp only
      refine ⟨hfin i hi, ?_, ?_⟩
      · split
        · exact le_refl _
        · exact z0 i hi
      · split
        · exact (Fl.zp_pos _).le
        · exact le_trans (z1 i hi) (zle (by omega))
    · intro i j hi hj hji hwj y hy
      refine hxz i hi (hall i hi) j hj hji ?_ y hy
      intro hw0
      apply hwj
      simp only [zz j hj (hall j hj) hw0]
      split <;> rfl
  · left
    push Not at hall
    obtain ⟨i, hi, hxi⟩ := hall
    have hXl : (2 : ℚ) ^ (-108 - k) ≤ X := by
      have := zx i hi (-107 - k) (by omega) ((hx1 i hi).resolve_left hxi)
      exact le_trans (le_trans (zle (by omega)) this) (X1 i hi)
    have hk'lo2 : -108 - k ≤ k' := exp_le (le_trans hXl k2)
    refine ⟨k', fun i => if z i < c then 0 else z i, ⟨l1, ?_⟩, by omega, hk'hi, im, him, ?_⟩
    · intro i hi
      simp only
      refine ⟨hfin i hi, ?_, ?_, ?_⟩
      · split
        · exact le_refl _
        · exact z0 i hi
      · split
        · exact Or.inl rfl
        · next h => exact Or.inr (le_trans c1 (not_lt.mp h))
      · split
        · exact (Fl.zp_pos _).le
        · exact le_trans (X1 i hi) k2
    · simp only [eim]
      rw [if_neg (not_lt.mpr c2)]
      exact k1

theorem Dead.step {nAnt : Nat} (hn : nAnt ≤ 2 ^ 14) {mat : Nat → Nat → Option Fl} (hM : MatMid nAnt mat)
    {st : RmsState} (hg : Dead nAnt mat st.ant) :
    ∃ st', rmsIterate Fl.r64 nAnt mat st = some st' ∧ Dead nAnt mat st'.ant := by
  obtain ⟨w, hl, hw, hdead⟩ := hg
  have hsum : ∀ i, i < nAnt → ∃ s, nextSums Fl.r64 nAnt mat st.ant i = some s ∧ nextRms Fl.r64 s = .fin 0 := by
    intro i hi
    obtain ⟨s, e, e1, b, e2, _⟩ := forRange_inv nAnt
      (fun j (s : Fl × Fl) => (st.ant.rd j).bind fun w =>
        if i ≠ j ∧ Fl.eq w (.fin 0) = false then
          (mat i j).map fun x => if x.isFinite then (Fl.add Fl.r64 s.1 x, Fl.add Fl.r64 s.2 w) else s
        else some s) (.fin 0, .fin 0)
      (fun k s => s.1 = .fin 0 ∧ ∃ b : ℚ, s.2 = .fin b ∧ 0 ≤ b ∧ b ≤ k * 2 ^ (102 : ℤ))
      ⟨rfl, 0, rfl, le_refl _, by simp⟩ (by
        rintro j s hj ⟨e1, b, e2, b0, b1⟩
        obtain ⟨ew, w0, w1⟩ := hw j hj
        rw [Buf.rd_some (by omega), Option.bind_some, ew]
        have stay : b ≤ (j + 1 : ℕ) * 2 ^ (102 : ℤ) := by
          refine le_trans b1 (mul_le_mul_of_nonneg_right ?_ (Fl.zp_pos _).le)
          push_cast; linarith
        split
        · next hcond =>
          obtain ⟨hij, hw'⟩ := hcond
          have hw0 : w j ≠ 0 := by simpa [Fl.eq] using hw'
          obtain ⟨x, ex, hx⟩ := hM i j hi hj
          rw [ex]
          refine ⟨_, rfl, ?_⟩
          rcases hx with rfl | ⟨y, rfl, _, _, _⟩
          · simp only [Fl.isFinite, Bool.false_eq_true, if_false]
            exact ⟨e1, b, e2, b0, stay⟩
          · obtain rfl := hdead i j hi hj hij.symm hw0 y ex
            simp only [Fl.isFinite, if_true, e1, e2, Fl.add, add_zero, r64_zero', true_and]
            have hj2 : j + 1 ≤ 2 ^ 53 := le_trans (by omega : j + 1 ≤ 2 ^ 14) (by norm_num)
            obtain ⟨q, eq, q0, q1⟩ := r64_between (x := b + w j) (Fl.Repr.zero _) (repr64_count (k := 102) (by norm_num) hj2)
              (le_refl _) (by
                have h1 : ((j + 1 : ℕ) : ℚ) ≤ 2 ^ (53 : ℤ) := by exact_mod_cast hj2
                refine le_trans (mul_le_mul_of_nonneg_right h1 (Fl.zp_pos _).le) ?_
                rw [zadd]
                exact zle (by omega)) (by linarith)
              (by push_cast; rw [add_mul, one_mul]; exact add_le_add b1 w1)
            exact ⟨q, eq, q0, q1⟩
        · exact ⟨s, rfl, e1, b, e2, b0, stay⟩)
    refine ⟨s, e, ?_⟩
    unfold nextRms
    rw [e1, e2]
    by_cases hb : b = 0
    · simp [Fl.eq, hb]
    · simp [Fl.eq, hb, Fl.div, Fl.r64_zero]
  have : Nonempty Fl := ⟨.nan⟩
  choose! S hS hx using hsum
  obtain ⟨st', e, l1, hst⟩ := rmsIterate_spec (RD := Fl.r64) hl hS
  refine ⟨st', e, ?_⟩
  have hmix : ∀ i, i < nAnt → ∃ z, mix Fl.r64 (nextRms Fl.r64 (S i)) (st.ant.get i) = .fin z ∧ 0 ≤ z ∧
      z ≤ 2 ^ (102 : ℤ) ∧ (w i = 0 → z = 0) := by
    intro i hi
    obtain ⟨ew, w0, w2⟩ := hw i hi
    rw [hx i hi, ew]
    obtain ⟨z, h1, h2, h3, _, _, h6⟩ := mix_spec (M := 102) (by omega) (by omega) (le_refl 0) (Fl.zp_pos _).le w0 w2
    exact ⟨z, h1, h2, h3, h6 rfl⟩
  choose! z hz z0 z1 zz using hmix
  obtain ⟨X, eX, X0, X1, X2⟩ := maxTo_spec (y := fun i => mix Fl.r64 (nextRms Fl.r64 (S i)) (st.ant.get i)) hz
  have hcase : ∀ i, i < nAnt → st'.ant.get i = .fin 0 ∨ st'.ant.get i = .fin (z i) := by
    intro i hi
    rw [hst i hi, hz i hi]
    split
    · exact Or.inl rfl
    · exact Or.inr rfl
  have hcase' : ∀ i, i < nAnt → ∃ u, st'.ant.get i = .fin u ∧ (u = 0 ∨ u = z i) := fun i hi =>
    (hcase i hi).elim (fun h => ⟨0, h, Or.inl rfl⟩) fun h => ⟨z i, h, Or.inr rfl⟩
  choose! u hu hu2 using hcase'
  refine ⟨u, l1, ?_, ?_⟩
  · intro i hi
    refine ⟨hu i hi, ?_⟩
    rcases hu2 i hi with h | h
    · rw [h]; exact ⟨le_refl _, (Fl.zp_pos _).le⟩
    · rw [h]; exact ⟨z0 i hi, z1 i hi⟩
  · intro i j hi hj hji hwj y hy
    refine hdead i j hi hj hji ?_ y hy
    intro hw0
    apply hwj
    rcases hu2 j hj with h | h
    · exact h
    · rw [h, zz j hj hw0]

/-- The antenna values after the iterations. -/
theorem iterate_range {nAnt : Nat} (hn0 : 0 < nAnt) (hn : nAnt ≤ 2 ^ 14) {mat : Nat → Nat → Option Fl} (hM : MatMid nAnt mat) :
    ∃ st, forRange 100 (fun _ (st : RmsState) =>
      if Fl.lt (Fl.r64 (1 / 1000000)) st.precision then rmsIterate Fl.r64 nAnt mat st else some st)
      ⟨⟨nAnt, fun _ => .fin 1⟩, .fin 1⟩ = some st ∧ ((∃ k, Good nAnt k st.ant) ∨ Dead nAnt mat st.ant) := by
  obtain ⟨st, e, h⟩ := forRange_inv 100 (fun _ (st : RmsState) =>
      if Fl.lt (Fl.r64 (1 / 1000000)) st.precision then rmsIterate Fl.r64 nAnt mat st else some st)
      ⟨⟨nAnt, fun _ => .fin 1⟩, .fin 1⟩ (fun _ st => (∃ k, Good nAnt k st.ant) ∨ Dead nAnt mat st.ant)
      (Or.inl ⟨0, fun _ => 1, ⟨rfl, fun _ _ => ⟨rfl, by norm_num, Or.inr (by norm_num), by norm_num⟩⟩, by norm_num,
        by norm_num, 0, hn0, by norm_num⟩) (by
      rintro i st _ h
      split
      · rcases h with ⟨k, h⟩ | h
        · exact h.step hn hM
        · obtain ⟨st', e, h'⟩ := h.step hn hM
          exact ⟨st', e, Or.inr h'⟩
      · exact ⟨st, rfl, h⟩)
  exact ⟨st, e, h⟩

/-! ## Measurements of the channels and of the baselines -/

theorem channel_measured {l h : ℤ} (hl : -400 ≤ l) (hlh : l ≤ h) (hh : h ≤ 400) {v : Nat → Cx} {n : Nat}
    (hn : n ≤ 2 ^ 24) (hv : ∀ r, r < n → FullyFinite (v r) → ∀ a, IsComp (v r) a → Mid l h a) :
    ∃ s, Measured l h (fun w => ∃ r, r < n ∧ w = v r) (measFold Fl.r64 v n) s ∧ (measFold Fl.r64 v n).1 ≤ n := by
  induction n with
  | zero =>
    exact ⟨0, (measured_zero l h).weaken (fun w ⟨r, hr, _⟩ => by omega), Nat.le_refl _⟩
  | succ n ih =>
    obtain ⟨s, hs, hc⟩ := ih (by omega) fun r hr => hv r (by omega)
    obtain ⟨s', hs'⟩ := hs.include hl hlh hh (lt_of_le_of_lt (le_trans hc (by omega)) (by norm_num : 2 ^ 24 < 2 ^ 52))
      (hv n (by omega))
    refine ⟨s', hs'.weaken ?_, le_trans (includeVis_count _ _ _) (by omega)⟩
    rintro w ⟨r, hr, rfl⟩
    by_cases hrn : r = n
    · exact Or.inr (by rw [hrn])
    · exact Or.inl ⟨r, by omega, rfl⟩

section
variable {nR nPol nCh nAnt : Nat} {A : Nat → Nat × Nat} {D : Nat → Nat → Cx} {data : Block Cx}

theorem baseline_measured {l h : ℤ} (hl : -400 ≤ l) (hlh : l ≤ h) (hh : h ≤ 400)
    (hd : Holds nR (nPol * nCh) A D data) (hA : AntennasBelow nR nAnt A) {p : Nat} (hp : p < nPol)
    (hn : nR * nCh ≤ 2 ^ 24)
    (hv : ∀ r c, r < nR → c < nCh → FullyFinite (D r (c * nPol + p)) → ∀ a, IsComp (D r (c * nPol + p)) a → Mid l h a) :
    ∃ meas, baselineMeas Fl.r64 nPol nCh nAnt p data = some meas ∧ meas.len = nAnt * nAnt ∧
      ∀ b, b < nAnt * nAnt → (meas.get b).1 ≤ nR * nCh ∧
        ∃ s, Measured l h (fun w => ∃ r c, r < nR ∧ c < nCh ∧ (A r).1 ≠ (A r).2 ∧
          baselineIndex nAnt (A r).1 (A r).2 = b ∧ w = D r (c * nPol + p)) (meas.get b) s := by
  obtain ⟨meas, e, h1, h2⟩ := forRange_inv data.len (fun r meas => (data.rd r).bind fun row =>
    if row.antenna1 = row.antenna2 then some meas else
      forRange nCh (fun ch (meas : Buf (Nat × Fl)) =>
        (row.vis.rd (ch * nPol + p)).bind fun v =>
        (meas.rd (baselineIndex nAnt row.antenna1 row.antenna2)).bind fun m =>
        meas.wr (baselineIndex nAnt row.antenna1 row.antenna2) (includeVis Fl.r64 m v)) meas)
    ⟨nAnt * nAnt, fun _ => (0, .fin 0)⟩
    (fun k meas => meas.len = nAnt * nAnt ∧ ∀ b, b < nAnt * nAnt → (meas.get b).1 ≤ k * nCh ∧
        ∃ s, Measured l h (fun w => ∃ r c, r < k ∧ c < nCh ∧ (A r).1 ≠ (A r).2 ∧
          baselineIndex nAnt (A r).1 (A r).2 = b ∧ w = D r (c * nPol + p)) (meas.get b) s)
    ⟨rfl, fun b _ => ⟨by simp, 0, (measured_zero l h).weaken (fun w ⟨r, c, hr, _⟩ => by omega)⟩⟩ (by
      rintro r meas hr ⟨h1, h2⟩
      have hr' : r < nR := by rw [← hd.rows]; exact hr
      have hrow : (r + 1) * nCh ≤ nR * nCh := Nat.mul_le_mul_right _ hr'
      rw [Nat.add_mul, Nat.one_mul] at hrow
      rw [Buf.rd_some hr, Option.bind_some]
      have ha := hd.ant r hr'
      have e1 : (data.get r).antenna1 = (A r).1 := by rw [← ha]
      have e2 : (data.get r).antenna2 = (A r).2 := by rw [← ha]
      rw [e1, e2]
      by_cases hc : (A r).1 = (A r).2
      · rw [if_pos hc]
        refine ⟨meas, rfl, h1, ?_⟩
        intro b hb
        obtain ⟨c1, s, hs⟩ := h2 b hb
        refine ⟨by rw [Nat.add_mul, Nat.one_mul]; omega, s, hs.weaken ?_⟩
        rintro w ⟨r', c, hr1, hc', hne, hrest⟩
        have : r' ≠ r := by rintro rfl; exact hne hc
        exact ⟨r', c, by omega, hc', hne, hrest⟩
      · rw [if_neg hc]
        have hidx := baselineIndex_lt (hA r hr').1 (hA r hr').2
        obtain ⟨t, e, g1, g2⟩ := forRange_inv nCh (fun ch (meas : Buf (Nat × Fl)) =>
          ((data.get r).vis.rd (ch * nPol + p)).bind fun v =>
          (meas.rd (baselineIndex nAnt (A r).1 (A r).2)).bind fun m =>
          meas.wr (baselineIndex nAnt (A r).1 (A r).2) (includeVis Fl.r64 m v)) meas
          (fun k meas => meas.len = nAnt * nAnt ∧ ∀ b, b < nAnt * nAnt → (meas.get b).1 ≤ r * nCh + k ∧
            ∃ s, Measured l h (fun w => (∃ r' c, r' < r ∧ c < nCh ∧ (A r').1 ≠ (A r').2 ∧
              baselineIndex nAnt (A r').1 (A r').2 = b ∧ w = D r' (c * nPol + p)) ∨
              ∃ c, c < k ∧ baselineIndex nAnt (A r).1 (A r).2 = b ∧ w = D r (c * nPol + p)) (meas.get b) s)
          ⟨h1, fun b hb => ⟨(h2 b hb).1, (h2 b hb).2.imp fun s hs => hs.weaken
            (fun w hw => hw.elim id fun ⟨c, hc, _⟩ => by omega)⟩⟩ (by
            rintro ch t hch ⟨g1, g2⟩
            have hi := chan_lt hch hp
            rw [Buf.rd_some (by rw [hd.len r hr']; exact hi), Option.bind_some,
              Buf.rd_some (by omega), Option.bind_some, Buf.wr_some (by omega), hd.vis r _ hr' hi]
            refine ⟨_, rfl, g1, ?_⟩
            intro b hb
            obtain ⟨c1, s, hs⟩ := g2 b hb
            by_cases hbi : b = baselineIndex nAnt (A r).1 (A r).2
            · simp only [hbi, if_true]
              rw [← hbi]
              obtain ⟨s', hs'⟩ := hs.include hl hlh hh
                (lt_of_le_of_lt (by omega : _ ≤ 2 ^ 24) (by norm_num : 2 ^ 24 < 2 ^ 52)) (hv r ch hr' hch)
              refine ⟨le_trans (includeVis_count _ _ _) (by omega), s', hs'.weaken ?_⟩
              rintro w (hw | ⟨c, hc', _, rfl⟩)
              · exact Or.inl (Or.inl hw)
              · by_cases hcc : c = ch
                · exact Or.inr (by rw [hcc])
                · exact Or.inl (Or.inr ⟨c, by omega, hbi.symm, rfl⟩)
            · simp only [hbi, if_false]
              refine ⟨by omega, s, hs.weaken ?_⟩
              rintro w (hw | ⟨c, hc', hcb, rfl⟩)
              · exact Or.inl hw
              · exact absurd hcb.symm hbi)
        refine ⟨t, e, g1, ?_⟩
        intro b hb
        obtain ⟨c1, s, hs⟩ := g2 b hb
        refine ⟨by rw [Nat.add_mul, Nat.one_mul]; exact c1, s, hs.weaken ?_⟩
        rintro w ⟨r', c, hr1, hc', hne, hb', rfl⟩
        by_cases hrr : r' = r
        · subst hrr
          exact Or.inr ⟨c, hc', hb', rfl⟩
        · exact Or.inl ⟨r', c, by omega, hc', hne, hb', rfl⟩)
  rw [hd.rows] at h2
  exact ⟨meas, e, h1, h2⟩

end

end Dysco.AF
