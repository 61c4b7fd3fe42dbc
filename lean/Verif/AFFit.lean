import Verif.AFLemmas
import Verif.ScaleLemmas
import Mathlib.Algebra.Order.Archimedean.Basic

/-!
# The fitting loop of the antenna-frequency encoder

The proofs are done once, for every arithmetic that satisfies `Acc`: exact arithmetic (`acc_exact`) and IEEE
double arithmetic (`acc_r64`).
-/

namespace Dysco

/-! ## Termination of `do … while` -/

theorem doWhile_terminates {σ : Type} (body : σ → Option (σ × Bool)) (Inv Post : σ → Prop) (Φ : σ → ℚ)
    (B c : ℚ) (hc : 1 < c) (h0 : ∀ s, Inv s → 0 < Φ s) (hB : ∀ s, Inv s → Φ s ≤ B)
    (step : ∀ s, Inv s → ∃ s' b, body s = some (s', b) ∧ (b = true → Inv s' ∧ c * Φ s ≤ Φ s') ∧
      (b = false → Post s')) (s : σ) (h : Inv s) :
    ∃ N s', Post s' ∧ ∀ fuel, N ≤ fuel → doWhile body fuel s = some (some s') := by
  have key : ∀ k s, Inv s → B < c ^ k * Φ s →
      ∃ N s', Post s' ∧ ∀ fuel, N ≤ fuel → doWhile body fuel s = some (some s') := by
    intro k
    induction k with
    | zero =>
      intro s hs hlt
      rw [pow_zero, one_mul] at hlt
      exact absurd (hB s hs) (not_le.mpr hlt)
    | succ k ih =>
      intro s hs hlt
      obtain ⟨s', b, e, h1, h2⟩ := step s hs
      cases b with
      | false =>
        refine ⟨1, s', h2 rfl, ?_⟩
        intro fuel hf
        obtain ⟨f, rfl⟩ : ∃ f, fuel = f + 1 := ⟨fuel - 1, by omega⟩
        simp [doWhile, e]
      | true =>
        obtain ⟨hi, hg⟩ := h1 rfl
        obtain ⟨N, s'', hp, hN⟩ := ih s' hi (by
          refine lt_of_lt_of_le hlt ?_
          rw [pow_succ, mul_assoc]
          exact mul_le_mul_of_nonneg_left hg (by positivity))
        refine ⟨N + 1, s'', hp, ?_⟩
        intro fuel hf
        obtain ⟨f, rfl⟩ : ∃ f, fuel = f + 1 := ⟨fuel - 1, by omega⟩
        simp only [doWhile, e, Option.bind_some, if_true]
        exact hN f (by omega)
  obtain ⟨k, hk⟩ := pow_unbounded_of_one_lt (B / Φ s) hc
  refine key k s h ?_
  rwa [div_lt_iff₀ (h0 s h)] at hk

namespace AF
open TimeBlock

/-! ## Products -/

/-- `f 0 * … * f (n-1)`. -/
def prodTo (f : Nat → ℚ) : Nat → ℚ
  | 0 => 1
  | n + 1 => prodTo f n * f n

theorem prodTo_pos {f : Nat → ℚ} {n : Nat} (h : ∀ j, j < n → 0 < f j) : 0 < prodTo f n := by
  induction n with
  | zero => exact one_pos
  | succ n ih => exact mul_pos (ih fun j hj => h j (by omega)) (h n (by omega))

theorem prodTo_le {f : Nat → ℚ} {n : Nat} {B : ℚ} (h : ∀ j, j < n → 0 < f j ∧ f j ≤ B) :
    prodTo f n ≤ B ^ n := by
  induction n with
  | zero => simp [prodTo]
  | succ n ih =>
    rw [pow_succ, prodTo]
    have h1 := ih fun j hj => h j (by omega)
    have h2 := h n (by omega)
    have h3 := prodTo_pos (n := n) fun j hj => (h j (by omega)).1
    exact mul_le_mul h1 h2.2 h2.1.le (le_trans h3.le h1)

theorem prodTo_mono {f g : Nat → ℚ} {n : Nat} (h : ∀ j, j < n → 0 < f j ∧ f j ≤ g j) :
    prodTo f n ≤ prodTo g n := by
  induction n with
  | zero => exact le_refl _
  | succ n ih =>
    have h2 := h n (by omega)
    have h1 := ih fun j hj => h j (by omega)
    have h3 := prodTo_pos (n := n) fun j hj => (h j (by omega)).1
    exact mul_le_mul h1 h2.2 h2.1.le (le_trans h3.le h1)

/-- If no factor shrinks and one grows by `c`, the product grows by `c`. -/
theorem prodTo_grow {f g : Nat → ℚ} {n k : Nat} {c : ℚ} (hk : k < n)
    (h : ∀ j, j < n → 0 < f j ∧ f j ≤ g j) (hg : c * f k ≤ g k) :
    c * prodTo f n ≤ prodTo g n := by
  induction n with
  | zero => omega
  | succ n ih =>
    have h2 := h n (by omega)
    have hf := prodTo_pos (n := n) fun j hj => (h j (by omega)).1
    have h1 := prodTo_mono (n := n) fun j hj => h j (by omega)
    rcases Nat.lt_or_eq_of_le (Nat.le_of_lt_succ hk) with h' | h'
    · have h3 := ih h' fun j hj => h j (by omega)
      rw [prodTo, prodTo, ← mul_assoc]
      exact mul_le_mul h3 h2.2 h2.1.le (le_trans hf.le h1)
    · subst h'
      rw [prodTo, prodTo, mul_left_comm]
      exact le_trans (mul_le_mul_of_nonneg_left hg hf.le)
        (mul_le_mul_of_nonneg_right h1 (le_trans h2.1.le h2.2))

/-! ## Arithmetic -/

/-- An arithmetic with relative error `ε` for numbers that are at least `lo` and for which `T` holds (`T`
excludes overflow), and with absolute error `ε` for numbers up to 1. -/
structure Acc (R : ℚ → Fl) (lo : ℚ) (T : ℚ → Prop) (ε : ℚ) : Prop where
  rel : ∀ x, x = 0 ∨ lo ≤ |x| → T |x| → ∃ y, R x = .fin y ∧ |y - x| ≤ |x| * ε
  near : ∀ x, |x| ≤ 1 → ∃ y, R x = .fin y ∧ |y - x| ≤ ε
  one : R 1 = .fin 1
  down : ∀ x y, x ≤ y → T y → T x
  lo_nonneg : 0 ≤ lo
  lo_le : lo ≤ 1 / 4
  eps_nonneg : 0 ≤ ε
  eps_le : ε ≤ 1 / 100000

theorem acc_exact : Acc Fl.exact 0 (fun _ => True) 0 where
  rel x _ _ := ⟨x, rfl, by simp⟩
  near x _ := ⟨x, rfl, by simp⟩
  one := rfl
  down _ _ _ _ := trivial
  lo_nonneg := le_refl _
  lo_le := by norm_num
  eps_nonneg := le_refl _
  eps_le := by norm_num

theorem acc_r64 : Acc Fl.r64 (2 ^ (-1022 : ℤ)) (fun x => x ≤ 2 ^ (1000 : ℤ)) (2 ^ (-53 : ℤ)) where
  rel x h1 h2 := by
    rcases h1 with rfl | h1
    · exact ⟨0, Fl.r64_zero, by simp⟩
    · obtain ⟨e, h⟩ := Fl.r64_normal h1 h2
      exact ⟨_, e, h⟩
  near x h := by
    rcases le_or_gt ((2 : ℚ) ^ (-1022 : ℤ)) |x| with h1 | h1
    · obtain ⟨e, h'⟩ := Fl.r64_normal h1 (le_trans h (one_le_zpow₀ (by norm_num) (by norm_num)))
      refine ⟨_, e, le_trans h' ?_⟩
      exact mul_le_of_le_one_left (Fl.zp_pos _).le h
    · have h2 := Fl.rnd_gen_err (f := Fl.binary64) x
      have e1 : (2 : ℚ) ^ (-((Fl.binary64.p : ℤ))) = 2 ^ (-53 : ℤ) := rfl
      have e2 : (2 : ℚ) ^ (Fl.binary64.emin - 1) = 2 ^ (-1075 : ℤ) := by norm_num [Fl.binary64]
      rw [e1, e2] at h2
      have h3 : (2 : ℚ) ^ (-1022 : ℤ) ≤ 2 ^ (-54 : ℤ) := zpow_le_zpow_right₀ (by norm_num) (by norm_num)
      have h4 : (2 : ℚ) ^ (-1075 : ℤ) ≤ 2 ^ (-54 : ℤ) := zpow_le_zpow_right₀ (by norm_num) (by norm_num)
      have h5 : (2 : ℚ) ^ (-53 : ℤ) = 2 ^ (-54 : ℤ) + 2 ^ (-54 : ℤ) := by norm_num
      have h6 : |x| * (2 : ℚ) ^ (-53 : ℤ) ≤ |x| :=
        mul_le_of_le_one_right (abs_nonneg x) (by norm_num)
      have h7 : |Fl.rnd Fl.binary64 x - x| ≤ 2 ^ (-53 : ℤ) := by rw [h5]; linarith
      refine ⟨_, Fl.r64_fin ?_, h7⟩
      have h8 : |Fl.rnd Fl.binary64 x| ≤ |x| + |Fl.rnd Fl.binary64 x - x| := by
        have := abs_add_le x (Fl.rnd Fl.binary64 x - x)
        rwa [add_sub_cancel] at this
      have h9 : (2 : ℚ) ^ (-53 : ℤ) ≤ 1 := by norm_num
      have h10 : (2 : ℚ) ^ (2 : ℤ) ≤ 2 ^ (1024 : ℤ) := zpow_le_zpow_right₀ (by norm_num) (by norm_num)
      have h11 : (2 : ℚ) ^ (2 : ℤ) = 4 := by norm_num
      rw [h11] at h10
      exact lt_of_le_of_lt (le_trans h8 (add_le_add h (le_trans h7 h9)))
        (lt_of_lt_of_le (by norm_num) h10)
  one := by
    have e : Fl.rnd Fl.binary64 1 = 1 := Fl.rnd_of_repr (f := Fl.binary64) (by decide)
      ⟨1, 0, by decide, by decide, by norm_num⟩
    rw [Fl.r64_fin, e]
    rw [e, abs_one]
    exact one_lt_zpow₀ (by norm_num) (by norm_num)
  down _ _ h1 h2 := le_trans h1 h2
  lo_nonneg := (Fl.zp_pos _).le
  lo_le := by
    have : (2 : ℚ) ^ (-1022 : ℤ) ≤ 2 ^ (-2 : ℤ) := zpow_le_zpow_right₀ (by norm_num) (by norm_num)
    have e : (2 : ℚ) ^ (-2 : ℤ) = 1 / 4 := by norm_num
    rwa [e] at this
  eps_nonneg := (Fl.zp_pos _).le
  eps_le := by norm_num

/-! ## Scaling one visibility -/

/-- The finite components of a counted visibility are zero or at least `lo`, and its magnitude is at most
`B`. -/
def CellOk (lo B : ℚ) (v : Cx) : Prop :=
  ∀ m, Counted v m → m ≤ B ∧ ∀ a, (v.re = .fin a ∨ v.im = .fin a) → a = 0 ∨ lo ≤ |a|

variable {R : ℚ → Fl} {lo ε : ℚ} {T : ℚ → Prop}

theorem mul_comp (hR : Acc R lo T ε) {lo1 q a m : ℚ} (hq : 0 < q) (hlo : lo ≤ lo1 * q)
    (hT : T (m * q)) (ha : a = 0 ∨ lo1 ≤ |a|) (ham : |a| ≤ m) :
    ∃ a', Fl.mul R (.fin a) (.fin q) = .fin a' ∧ |a| * q * (1 - ε) ≤ |a'| ∧
      |a'| ≤ |a| * q * (1 + ε) ∧ (a' = 0 ∨ lo1 * q * (1 - ε) ≤ |a'|) := by
  have habs : |a * q| = |a| * q := by rw [abs_mul, abs_of_pos hq]
  obtain ⟨y, e, h⟩ := hR.rel (a * q) (by
    rcases ha with rfl | ha
    · exact Or.inl (zero_mul _)
    · right
      rw [habs]
      exact le_trans hlo (mul_le_mul_of_nonneg_right ha hq.le))
    (hR.down _ _ (by rw [habs]; exact mul_le_mul_of_nonneg_right ham hq.le) hT)
  rw [habs] at h
  have h1 : |y| ≤ |a| * q + |a| * q * ε := by
    have := abs_add_le (a * q) (y - a * q)
    rw [add_sub_cancel, habs] at this
    linarith
  have h2 : |a| * q - |a| * q * ε ≤ |y| := by
    have := abs_sub_abs_le_abs_sub (a * q) y
    rw [abs_sub_comm, habs] at this
    linarith
  have h3 : |a| * q * (1 - ε) ≤ |y| := by linarith
  refine ⟨y, e, h3, by linarith, ?_⟩
  rcases ha with rfl | ha
  · left
    rw [abs_zero, zero_mul, zero_mul, add_zero] at h1
    exact abs_eq_zero.mp (le_antisymm h1 (abs_nonneg _))
  · right
    refine le_trans ?_ h3
    have : (0 : ℚ) ≤ 1 - ε := by have := hR.eps_le; linarith
    exact mul_le_mul_of_nonneg_right (mul_le_mul_of_nonneg_right ha hq.le) this

theorem scale_cell (hR : Acc R lo T ε) {lo1 B q m : ℚ} (hq : 0 < q) (hlo : lo ≤ lo1 * q) {v : Cx}
    (hv : CellOk lo1 B v) (hm : Counted v m) (hT : T (m * q)) :
    ∃ m', Counted (v.scale R (.fin q)) m' ∧ m * q * (1 - ε) ≤ m' ∧ m' ≤ m * q * (1 + ε) ∧
      ∀ a, ((v.scale R (.fin q)).re = .fin a ∨ (v.scale R (.fin q)).im = .fin a) →
        a = 0 ∨ lo1 * q * (1 - ε) ≤ |a| := by
  obtain ⟨_, hcomp⟩ := hv m hm
  have hε : (0 : ℚ) ≤ 1 - ε := by have := hR.eps_le; linarith
  have hε' : (0 : ℚ) ≤ 1 + ε := by have := hR.eps_nonneg; linarith
  have hm' := hm
  obtain ⟨a, ea, hb⟩ := hm
  obtain ⟨a', e1, g1, g2, g3⟩ := mul_comp hR hq hlo hT (hcomp a (Or.inl ea)) (hm'.re_le ea)
  rcases hb with ⟨b, eb, hmb⟩ | ⟨eb, hmb⟩
  · obtain ⟨b', e2, k1, k2, k3⟩ := mul_comp hR hq hlo hT (hcomp b (Or.inr eb)) (hm'.im_le eb)
    have ere : (v.scale R (.fin q)).re = .fin a' := by rw [← e1]; simp [Cx.scale, ea]
    have eim : (v.scale R (.fin q)).im = .fin b' := by rw [← e2]; simp [Cx.scale, eb]
    refine ⟨max |a'| |b'|, ⟨a', ere, Or.inl ⟨b', eim, rfl⟩⟩, ?_, ?_, ?_⟩
    · rcases le_total |a| |b| with h | h
      · rw [hmb, max_eq_right h]; exact le_trans k1 (le_max_right _ _)
      · rw [hmb, max_eq_left h]; exact le_trans g1 (le_max_left _ _)
    · apply max_le
      · refine le_trans g2 (mul_le_mul_of_nonneg_right (mul_le_mul_of_nonneg_right ?_ hq.le) hε')
        exact hm'.re_le ea
      · refine le_trans k2 (mul_le_mul_of_nonneg_right (mul_le_mul_of_nonneg_right ?_ hq.le) hε')
        exact hm'.im_le eb
    · rintro x (h | h)
      · rw [ere] at h; obtain rfl : a' = x := by simpa using h
        exact g3
      · rw [eim] at h; obtain rfl : b' = x := by simpa using h
        exact k3
  · have ere : (v.scale R (.fin q)).re = .fin a' := by rw [← e1]; simp [Cx.scale, ea]
    have eim : (v.scale R (.fin q)).im = .nan := by simp [Cx.scale, eb, Fl.mul]
    refine ⟨|a'|, ⟨a', ere, Or.inr ⟨eim, rfl⟩⟩, by rw [hmb]; exact g1, by rw [hmb]; exact g2, ?_⟩
    rintro x (h | h)
    · rw [ere] at h; obtain rfl : a' = x := by simpa using h
      exact g3
    · rw [eim] at h; simp at h

/-- Scaling does not make uncounted visibilities counted. -/
theorem counted_of_scale {v : Cx} {q m' : ℚ} (hq : 0 < q) (h : Counted (v.scale R (.fin q)) m') :
    ∃ m, Counted v m := by
  obtain ⟨a, h1, h2⟩ := h
  simp only [Cx.scale] at h1 h2
  cases hre : v.re with
  | nan => rw [hre] at h1; simp [Fl.mul] at h1
  | inf s => rw [hre] at h1; simp [Fl.mul, hq.ne'] at h1
  | fin a' =>
    cases him : v.im with
    | nan => exact ⟨|a'|, a', hre, Or.inr ⟨him, rfl⟩⟩
    | fin b' => exact ⟨max |a'| |b'|, a', hre, Or.inl ⟨b', him, rfl⟩⟩
    | inf s => rw [him] at h2; simp [Fl.mul, hq.ne'] at h2

/-- A scaled visibility is again in range. -/
theorem scale_ok (hR : Acc R lo T ε) {lo1 lo2 B B' q : ℚ} (hq : 0 < q) (hlo : lo ≤ lo1 * q) {v : Cx}
    (hv : CellOk lo1 B v) (hT : ∀ m, Counted v m → T (m * q))
    (hB : ∀ m, Counted v m → m * q * (1 + ε) ≤ B') (hl : lo2 ≤ lo1 * q * (1 - ε)) :
    CellOk lo2 B' (v.scale R (.fin q)) := by
  intro m' hm'
  obtain ⟨m, hm⟩ := counted_of_scale hq hm'
  obtain ⟨m2, h1, _, h3, h4⟩ := scale_cell hR hq hlo hv hm (hT m hm)
  rw [hm'.unique h1]
  refine ⟨le_trans h3 (hB m hm), fun a ha => ?_⟩
  rcases h4 a ha with h | h
  · exact Or.inl h
  · exact Or.inr (le_trans hl h)

/-! ## The factors -/

/-- The numbers that occur in the loop, in range of the arithmetic. -/
structure Range (R : ℚ → Fl) (lo : ℚ) (T : ℚ → Prop) (ε L lo1 : ℚ) : Prop extends Acc R lo T ε where
  L_pos : 0 < L
  lo_lo1 : lo ≤ lo1
  /-- No overflow of quotients, and of their small multiples. -/
  T_quot : ∀ M, 0 < M → lo1 ≤ M → T (4 * (L / M))
  T_small : T (4 * L) ∧ T 4

/-- Upper bound during the loop. -/
def B1 (L ε : ℚ) : ℚ := L * (1 + 7 * ε)

/-- Upper bound after the loop. -/
def B2 (L ε : ℚ) : ℚ := L * (1 + 9 * ε)

/-- The correctly rounded quotient `L / M` for a maximum `M` within the loop's bounds. -/
theorem quot_spec {L lo1 M : ℚ} (hR : Range R lo T ε L lo1) (hM : 0 < M) (hM1 : lo1 ≤ M)
    (hM2 : M ≤ B1 L ε) :
    ∃ z, Fl.div R (.fin L) (.fin M) = .fin z ∧ 1 / 2 ≤ z ∧ L / M * (1 - ε) ≤ z ∧ z ≤ L / M * (1 + ε) := by
  have hL := hR.L_pos
  have hpos : 0 < L / M := div_pos hL hM
  have hε := hR.eps_le
  have hε0 := hR.eps_nonneg
  have h1 : 1 / (1 + 7 * ε) ≤ L / M := by
    rw [div_le_div_iff₀ (by linarith) hM, one_mul]
    exact hM2
  have h2 : (99 : ℚ) / 100 ≤ 1 / (1 + 7 * ε) := by
    rw [div_le_div_iff₀ (by norm_num) (by linarith)]
    linarith
  have h3 : (99 : ℚ) / 100 ≤ L / M := le_trans h2 h1
  obtain ⟨y, e, h⟩ := hR.rel (L / M) (Or.inr (by
    rw [abs_of_pos hpos]
    have := hR.lo_le
    linarith)) (hR.down _ _ (by rw [abs_of_pos hpos]; linarith) (hR.T_quot M hM hM1))
  rw [abs_of_pos hpos, abs_le] at h
  refine ⟨y, ?_, ?_, by linarith [h.1], by linarith [h.2]⟩
  · simp only [Fl.div, if_neg hM.ne', e]
  · have : L / M * ε ≤ L / M * (1 / 100000) := mul_le_mul_of_nonneg_left hε hpos.le
    linarith [h.1]

/-- The antenna factor. -/
theorem antennaFactor_spec {L lo1 M : ℚ} (hR : Range R lo T ε L lo1) (hM : 0 < M) (hM1 : lo1 ≤ M)
    (hM2 : M ≤ B1 L ε) :
    ∃ q, antennaFactor R (.fin L) (.fin M) = .fin q ∧ 0 < q ∧ q ≤ L / M * (1 + 5 * ε) := by
  obtain ⟨z, e, h1, _, h3⟩ := quot_spec hR hM hM1 hM2
  refine ⟨z, ?_, by linarith, le_trans h3 ?_⟩
  · simp only [antennaFactor, Fl.eq, decide_eq_true_eq, if_neg hM.ne', e]
  · have := div_pos hR.L_pos hM
    have := hR.eps_nonneg
    nlinarith

/-- The channel factor of the loop: `(L / M - 1) + 1`, rounded three times. -/
theorem gain_spec {L lo1 M : ℚ} (hR : Range R lo T ε L lo1) (hM : 0 < M) (hM1 : lo1 ≤ M)
    (hM2 : M ≤ B1 L ε) :
    ∃ q, Fl.add R (gain R (.fin L) (.fin M)) (.fin 1) = .fin q ∧ 0 < q ∧ q ≤ L / M * (1 + 5 * ε) := by
  obtain ⟨z, e, h1, h2, h3⟩ := quot_spec hR hM hM1 hM2
  have hL := hR.L_pos
  have hpos : 0 < L / M := div_pos hL hM
  have hε := hR.eps_le
  have hε0 := hR.eps_nonneg
  have hz2 : z ≤ 2 * (L / M) := le_trans h3 (by nlinarith)
  obtain ⟨w, ew, hw⟩ : ∃ w, R (z + -1) = .fin w ∧ |w - (z - 1)| ≤ 2 * ε * z := by
    rcases le_or_gt |z + -1| 1 with h | h
    · obtain ⟨w, e, hw⟩ := hR.near _ h
      exact ⟨w, e, by rw [← sub_eq_add_neg] at hw; exact le_trans hw (by nlinarith)⟩
    · have hz : 1 < z - 1 := by
        rcases lt_abs.mp h with h' | h'
        · linarith
        · linarith
      obtain ⟨w, e, hw⟩ := hR.rel (z + -1) (Or.inr (by have := hR.lo_le; linarith))
        (hR.down _ _ (by rw [abs_of_pos (by linarith)]; linarith) (hR.T_quot M hM hM1))
      rw [← sub_eq_add_neg] at hw e
      rw [abs_of_pos (by linarith : (0 : ℚ) < z - 1)] at hw
      exact ⟨w, by rw [← sub_eq_add_neg]; exact e, le_trans hw (by nlinarith)⟩
  rw [abs_le] at hw
  have hzε : ε * z ≤ 1 / 100000 * z := mul_le_mul_of_nonneg_right hε (by linarith)
  have hw1 : 49 / 100 ≤ w + 1 := by nlinarith [hw.1]
  have hw2 : w + 1 ≤ z * (1 + 2 * ε) := by linarith [hw.2]
  obtain ⟨q, eq, hq⟩ := hR.rel (w + 1) (Or.inr (by
    rw [abs_of_pos (by linarith)]
    have := hR.lo_le
    linarith)) (hR.down _ _ (by rw [abs_of_pos (by linarith)]; nlinarith) (hR.T_quot M hM hM1))
  rw [abs_of_pos (by linarith : (0 : ℚ) < w + 1), abs_le] at hq
  refine ⟨q, ?_, ?_, ?_⟩
  · simp only [gain, Fl.eq, decide_eq_true_eq, if_neg hM.ne', e, Fl.sub, Fl.neg, Fl.add, ew, eq]
  · have : (w + 1) * ε ≤ (w + 1) * (1 / 100000) := mul_le_mul_of_nonneg_left hε (by linarith)
    linarith [hq.1]
  · have s1 : q ≤ (w + 1) * (1 + ε) := by linarith [hq.2]
    have s2 : (w + 1) * (1 + ε) ≤ z * (1 + 2 * ε) * (1 + ε) :=
      mul_le_mul_of_nonneg_right hw2 (by linarith)
    have s3 : z * (1 + 2 * ε) * (1 + ε) ≤ L / M * (1 + ε) * (1 + 2 * ε) * (1 + ε) := by
      apply mul_le_mul_of_nonneg_right _ (by linarith)
      exact mul_le_mul_of_nonneg_right h3 (by linarith)
    have s4 : (1 + ε) * (1 + 2 * ε) * (1 + ε) ≤ 1 + 5 * ε := by nlinarith [mul_nonneg hε0 hε0]
    calc q ≤ L / M * (1 + ε) * (1 + 2 * ε) * (1 + ε) := le_trans s1 (le_trans s2 s3)
      _ = L / M * ((1 + ε) * (1 + 2 * ε) * (1 + ε)) := by ring
      _ ≤ L / M * (1 + 5 * ε) := mul_le_mul_of_nonneg_left s4 hpos.le

/-! ## The first stage -/

variable {nR nPol nCh nAnt : Nat} {A : Nat → Nat × Nat} {D : Nat → Nat → Cx} {data : Block Cx}
variable {RF : ℚ → Fl}

/-- Cross-correlation cells are in range. -/
def CrossOk (nR n : Nat) (A : Nat → Nat × Nat) (D : Nat → Nat → Cx) (lo B : ℚ) : Prop :=
  ∀ r i, r < nR → i < n → Cross A r → CellOk lo B (D r i)

/-- A non-zero maximum is at least `lo`. -/
theorem MaxOver.ge {S : Nat → Nat → Prop} {lo1 M : ℚ} {B : Nat → Nat → ℚ} (h : MaxOver S D M)
    (hc : ∀ r i, S r i → CellOk lo1 (B r i) (D r i)) (h0 : M ≠ 0) : lo1 ≤ M := by
  obtain ⟨_, _, h3⟩ := h
  rcases h3 with h3 | ⟨r, i, hs, hm⟩
  · exact absurd h3 h0
  · obtain ⟨a, ha, e⟩ := hm.attained
    obtain ⟨_, hcomp⟩ := hc r i hs M hm
    rcases hcomp a ha with h | h
    · rw [h, abs_zero] at e; exact absurd e.symm h0
    · rw [← e]; exact h

/-- A maximum is within any bound on its cells. -/
theorem MaxOver.le {S : Nat → Nat → Prop} {lo1 M : ℚ} {B : ℚ} (h : MaxOver S D M) (hB : 0 ≤ B)
    (hc : ∀ r i, S r i → CellOk lo1 B (D r i)) : M ≤ B := by
  obtain ⟨_, _, h3⟩ := h
  rcases h3 with h3 | ⟨r, i, hs, hm⟩
  · rw [h3]; exact hB
  · exact (hc r i hs M hm).1

/-- A relation that is kept by the elementary operations of the fit with positive factors. -/
structure Kept (RF R : ℚ → Fl) (nPol nCh nAnt : Nat) (J : Block Cx × Buf Fl → Prop) : Prop where
  channel : ∀ st i q st', J st → i < nPol * nCh → 0 < q →
    changeChannel RF R st i (.fin q) = some st' → J st'
  antenna : ∀ st a p q st', J st → a < nAnt → p < nPol → 0 < q →
    changeAntenna RF R nPol nCh nAnt st a p (.fin q) = some st' → J st'

/-- Range of the input of the fit: `lo0` and `B0` bound the components of the cross-correlations. -/
structure InRange (R : ℚ → Fl) (lo : ℚ) (T : ℚ → Prop) (ε L lo0 B0 lo1 : ℚ) : Prop extends
    Range R lo T ε L lo1 where
  lo0_nonneg : 0 ≤ lo0
  B0_pos : 0 < B0
  quot_lo : lo ≤ L / B0
  quot_T : ∀ M, 0 < M → lo0 ≤ M → T (L / M)
  lo1_le : lo1 ≤ lo0 * (L / B0 * (1 - ε)) * (1 - ε)

theorem fitChannels_spec {L lo0 B0 lo1 : ℚ} (hR : InRange R lo T ε L lo0 B0 lo1)
    {J : Block Cx × Buf Fl → Prop} (hJ : Kept RF R nPol nCh nAnt J)
    (h : Holds nR (nPol * nCh) A D data) (metaB : Buf Fl) (hb : nPol * nCh ≤ metaB.len)
    (hD : CrossOk nR (nPol * nCh) A D lo0 B0) (hj : J (data, metaB)) :
    ∃ D' st', fitChannels RF R nPol nCh (.fin L) (data, metaB) = some st' ∧
      Holds nR (nPol * nCh) A D' st'.1 ∧ st'.2.len = metaB.len ∧ J st' ∧
      CrossOk nR (nPol * nCh) A D' lo1 (B1 L ε) := by
  have hL := hR.L_pos
  have hε := hR.eps_le
  have hε0 := hR.eps_nonneg
  obtain ⟨st', e, D', h1, h2, h3, h4, _⟩ := forRange_inv (nPol * nCh)
    (fun i st => (crossMax st.1 i).bind fun mx =>
      changeChannel RF R st i (firstFactor R (.fin L) mx)) (data, metaB)
    (fun k st => ∃ D', Holds nR (nPol * nCh) A D' st.1 ∧ st.2.len = metaB.len ∧ J st ∧
      (∀ r i, r < nR → i < k → Cross A r → CellOk lo1 (B1 L ε) (D' r i)) ∧
      (∀ r i, k ≤ i → D' r i = D r i))
    ⟨D, h, rfl, hj, fun r i _ hi => by omega, fun _ _ _ => rfl⟩ (by
      rintro i ⟨data1, meta1⟩ hi ⟨D1, h1, h2, h3, h4, h5⟩
      simp only at h1 h2
      obtain ⟨M, eM, hM⟩ := crossMax_spec h1 hi
      have hcell : ∀ r j, (r < nR ∧ Cross A r ∧ j = i) → CellOk lo0 B0 (D1 r j) := by
        rintro r j ⟨hr, hc, rfl⟩
        rw [h5 r j (Nat.le_refl _)]
        exact hD r j hr hi hc
      simp only
      rw [eM, Option.bind_some]
      -- the factor
      obtain ⟨q, eq, hq, hcells⟩ : ∃ q, firstFactor R (.fin L) (.fin M) = .fin q ∧ 0 < q ∧
          ∀ r, r < nR → Cross A r → CellOk lo1 (B1 L ε) ((D1 r i).scale R (.fin q)) := by
        by_cases h0 : M = 0
        · refine ⟨1, by simp [firstFactor, Fl.eq, h0], one_pos, ?_⟩
          intro r hr hc m' hm'
          obtain ⟨m, hm⟩ := counted_of_scale one_pos hm'
          have hm0 : m = 0 := by
            have := hM.2.1 r i m ⟨hr, hc, rfl⟩ hm
            rw [h0] at this
            exact le_antisymm this hm.nonneg
          have hz : ∀ a, ((D1 r i).re = .fin a ∨ (D1 r i).im = .fin a) → a = 0 := by
            rintro a (ha | ha)
            · have := hm.re_le ha; rw [hm0] at this
              exact abs_eq_zero.mp (le_antisymm this (abs_nonneg _))
            · have := hm.im_le ha; rw [hm0] at this
              exact abs_eq_zero.mp (le_antisymm this (abs_nonneg _))
          have hz' : ∀ a, (((D1 r i).scale R (.fin 1)).re = .fin a ∨
              ((D1 r i).scale R (.fin 1)).im = .fin a) → a = 0 := by
            obtain ⟨y, ey, hy⟩ := hR.rel 0 (Or.inl rfl)
              (hR.down _ _ (by rw [abs_zero]; norm_num) hR.T_small.2)
            rw [abs_zero, zero_mul, sub_zero] at hy
            have hy0 := abs_eq_zero.mp (le_antisymm hy (abs_nonneg _))
            rw [hy0] at ey
            rintro a (ha | ha)
            · simp only [Cx.scale] at ha
              cases hre : (D1 r i).re with
              | fin x =>
                rw [hre, hz x (Or.inl hre)] at ha
                simp only [Fl.mul, zero_mul, ey, Fl.fin.injEq] at ha
                exact ha.symm
              | inf n => rw [hre] at ha; simp [Fl.mul] at ha
              | nan => rw [hre] at ha; simp [Fl.mul] at ha
            · simp only [Cx.scale] at ha
              cases hre : (D1 r i).im with
              | fin x =>
                rw [hre, hz x (Or.inr hre)] at ha
                simp only [Fl.mul, zero_mul, ey, Fl.fin.injEq] at ha
                exact ha.symm
              | inf n => rw [hre] at ha; simp [Fl.mul] at ha
              | nan => rw [hre] at ha; simp [Fl.mul] at ha
          refine ⟨?_, fun a ha => Or.inl (hz' a ha)⟩
          obtain ⟨a, ha, e⟩ := hm'.attained
          rw [← e, hz' a ha, abs_zero]
          exact mul_nonneg hL.le (by linarith)
        · have hMpos : 0 < M := lt_of_le_of_ne hM.1 (Ne.symm h0)
          have hM1 : lo0 ≤ M := hM.ge (B := fun _ _ => B0) hcell h0
          have hM2 : M ≤ B0 := hM.le hR.B0_pos.le hcell
          have hpos : 0 < L / M := div_pos hL hMpos
          have hge : L / B0 ≤ L / M := div_le_div_of_nonneg_left hL.le hMpos hM2
          obtain ⟨q, eq, hq⟩ := hR.rel (L / M)
            (Or.inr (by rw [abs_of_pos hpos]; exact le_trans hR.quot_lo hge))
            (by rw [abs_of_pos hpos]; exact hR.quot_T M hMpos hM1)
          rw [abs_of_pos hpos, abs_le] at hq
          have hq1 : L / B0 * (1 - ε) ≤ q := by
            have : L / B0 * (1 - ε) ≤ L / M * (1 - ε) := mul_le_mul_of_nonneg_right hge (by linarith)
            linarith [hq.1]
          have hq0 : 0 < q := lt_of_lt_of_le (mul_pos (div_pos hL hR.B0_pos) (by linarith)) hq1
          have hlo1 : lo1 ≤ lo0 * q * (1 - ε) := by
            refine le_trans hR.lo1_le ?_
            exact mul_le_mul_of_nonneg_right (mul_le_mul_of_nonneg_left hq1 hR.lo0_nonneg) (by linarith)
          have hbound : ∀ m, m ≤ M → 0 ≤ m → m * q * (1 + ε) ≤ B1 L ε := by
            intro m hmM hm0
            have s1 : m * q ≤ M * (L / M * (1 + ε)) :=
              mul_le_mul hmM (by linarith [hq.2]) hq0.le hMpos.le
            have s2 : M * (L / M * (1 + ε)) = L * (1 + ε) := by field_simp
            rw [s2] at s1
            have s3 : m * q * (1 + ε) ≤ L * (1 + ε) * (1 + ε) :=
              mul_le_mul_of_nonneg_right s1 (by linarith)
            refine le_trans s3 ?_
            unfold B1
            rw [mul_assoc]
            apply mul_le_mul_of_nonneg_left _ hL.le
            nlinarith
          refine ⟨q, ?_, hq0, ?_⟩
          · simp [firstFactor, Fl.eq, hL.ne', h0, Fl.div, eq]
          · intro r hr hc
            have hTb : ∀ m, Counted (D1 r i) m → T (m * q) := by
              intro m hm
              have hb := hbound m (hM.2.1 r i m ⟨hr, hc, rfl⟩ hm) hm.nonneg
              refine hR.down _ _ ?_ hR.T_small.1
              have h0' : 0 ≤ m * q := mul_nonneg hm.nonneg hq0.le
              have : B1 L ε ≤ 4 * L := by unfold B1; nlinarith
              nlinarith
            refine scale_ok hR.toAcc hq0 (le_trans hR.lo_lo1 (le_trans hlo1 ?_))
              (hcell r i ⟨hr, hc, rfl⟩) hTb
              (fun m hm => hbound m (hM.2.1 r i m ⟨hr, hc, rfl⟩ hm) hm.nonneg) hlo1
            have : 0 ≤ lo0 * q := mul_nonneg hR.lo0_nonneg hq0.le
            nlinarith
      rw [eq]
      obtain ⟨D2, data2, e2, k1, k2, k3⟩ := changeChannel_spec (RF := RF) (RD := R) h1 meta1 hi
        (by omega) (.fin q)
      refine ⟨_, e2, D2, k1, h2, hJ.channel _ _ _ _ h3 hi hq e2, ?_, ?_⟩
      · intro r j hr hj' hc
        by_cases hji : j = i
        · rw [hji, k2 r hr]
          exact hcells r hr hc
        · rw [k3 r j hji]
          exact h4 r j hr (by omega) hc
      · intro r j hj'
        rw [k3 r j (by omega), h5 r j (by omega)])
  exact ⟨D', st', e, h1, h2, h3, fun r i hr hi hc => h4 r i hr hi hc⟩

/-! ## The loop -/

/-- Contribution of one visibility to the potential. -/
def cellVal (v : Cx) : ℚ :=
  match localMax v with
  | .fin m => if m = 0 then 1 else m
  | _ => 1

theorem cellVal_counted {v : Cx} {m : ℚ} (h : Counted v m) (h0 : m ≠ 0) : cellVal v = m := by
  rw [cellVal, localMax_counted.mpr h]; simp [h0]

theorem cellVal_zero {v : Cx} (h : Counted v 0) : cellVal v = 1 := by
  rw [cellVal, localMax_counted.mpr h]; simp

theorem cellVal_none {v : Cx} (h : ¬ ∃ m, Counted v m) : cellVal v = 1 := by
  unfold cellVal
  cases e : localMax v with
  | fin m => exact absurd ⟨m, localMax_counted.mp e⟩ h
  | inf _ => rfl
  | nan => rfl

theorem cellVal_pos (v : Cx) : 0 < cellVal v := by
  by_cases h : ∃ m, Counted v m
  · obtain ⟨m, hm⟩ := h
    by_cases h0 : m = 0
    · rw [h0] at hm; rw [cellVal_zero hm]; exact one_pos
    · rw [cellVal_counted hm h0]; exact lt_of_le_of_ne hm.nonneg (Ne.symm h0)
  · rw [cellVal_none h]; exact one_pos

/-- The potential: product of the magnitudes of all cross-correlation cells. -/
def potential (nR n : Nat) (A : Nat → Nat × Nat) (D : Nat → Nat → Cx) : ℚ :=
  prodTo (fun j => if (A (j / n)).1 = (A (j / n)).2 then 1 else cellVal (D (j / n) (j % n))) (nR * n)

/-- Cells during the loop of polarisation `p`: earlier polarisations are finished. -/
def LoopOk (nR nPol nCh : Nat) (A : Nat → Nat × Nat) (L ε lo1 : ℚ) (p : Nat) (D : Nat → Nat → Cx) :
    Prop :=
  ∀ r c p', r < nR → c < nCh → p' < nPol → Cross A r →
    (p' < p → CellOk 0 (B2 L ε) (D r (c * nPol + p'))) ∧
    (p ≤ p' → CellOk lo1 (B1 L ε) (D r (c * nPol + p')))

theorem CellOk.weaken {lo1 lo2 B B' : ℚ} {v : Cx} (h : CellOk lo1 B v) (hl : lo2 ≤ lo1) (hB : B ≤ B') :
    CellOk lo2 B' v := by
  intro m hm
  obtain ⟨h1, h2⟩ := h m hm
  refine ⟨le_trans h1 hB, fun a ha => ?_⟩
  rcases h2 a ha with h | h
  · exact Or.inl h
  · exact Or.inr (le_trans hl h)

theorem B1_le_B2 {L ε : ℚ} (hL : 0 < L) (hε : 0 ≤ ε) : B1 L ε ≤ B2 L ε := by
  unfold B1 B2; nlinarith

theorem LoopOk.finish {L lo1 : ℚ} (hR : Range R lo T ε L lo1) {p : Nat}
    (h : LoopOk nR nPol nCh A L ε lo1 p D) : LoopOk nR nPol nCh A L ε lo1 (p + 1) D := by
  intro r c p' hr hc hp' hcr
  obtain ⟨h1, h2⟩ := h r c p' hr hc hp' hcr
  constructor
  · intro hlt
    rcases Nat.lt_or_eq_of_le (Nat.le_of_lt_succ hlt) with h' | h'
    · exact h1 h'
    · exact (h2 (by omega)).weaken (le_trans hR.lo_nonneg hR.lo_lo1) (B1_le_B2 hR.L_pos hR.eps_nonneg)
  · intro hle
    exact h2 (by omega)

/-- Scaling cells with a factor that belongs to their maximum: the bounds stay, and if the factor is not
close to 1 the potential grows. -/
theorem loop_step {L lo1 : ℚ} (hR : Range R lo T ε L lo1) {p : Nat} (hp : p < nPol)
    {S : Nat → Nat → Prop} [∀ r i, Decidable (S r i)]
    (hS : ∀ r i, S r i → r < nR ∧ Cross A r ∧ ∃ c, c < nCh ∧ i = c * nPol + p)
    {M q : ℚ} (hM : MaxOver S D M) (hq : 1 ≤ q) (hqM : q = 1 ∨ (0 < M ∧ q ≤ L / M * (1 + 5 * ε)))
    {D' : Nat → Nat → Cx}
    (hD' : ∀ r c p', r < nR → c < nCh → p' < nPol → Cross A r → D' r (c * nPol + p') =
      if S r (c * nPol + p') then (D r (c * nPol + p')).scale R (.fin q) else D r (c * nPol + p'))
    (hok : LoopOk nR nPol nCh A L ε lo1 p D) :
    LoopOk nR nPol nCh A L ε lo1 (p + 1) D' ∧ (1 + 9 / 10000 ≤ q → LoopOk nR nPol nCh A L ε lo1 p D' ∧
      (1 + 5 / 10000) * potential nR (nPol * nCh) A D ≤ potential nR (nPol * nCh) A D') := by
  have hL := hR.L_pos
  have hε := hR.eps_le
  have hε0 := hR.eps_nonneg
  have hlo0 := hR.lo_nonneg
  have hlo1 := hR.lo_lo1
  have hq0 : 0 < q := by linarith
  have hloq : lo ≤ lo1 * q := by nlinarith
  -- cells of `S` are of this polarisation
  have hcell : ∀ r c p', r < nR → c < nCh → p' < nPol → Cross A r → S r (c * nPol + p') →
      p' = p ∧ CellOk lo1 (B1 L ε) (D r (c * nPol + p')) := by
    intro r c p' hr hc hp' hcr hs
    obtain ⟨_, _, c', _, e⟩ := hS _ _ hs
    have hpp := (flat_inj hp' hp e).2
    exact ⟨hpp, (hok r c p' hr hc hp' hcr).2 (by omega)⟩
  have hB4 : B1 L ε * (1 + ε) ≤ B2 L ε := by
    unfold B1 B2
    rw [mul_assoc]
    apply mul_le_mul_of_nonneg_left _ hL.le
    nlinarith
  have hB24 : B2 L ε ≤ 4 * L := by unfold B2; nlinarith
  have hfac : ∀ m, 0 ≤ m → m ≤ M → 0 < M → q ≤ L / M * (1 + 5 * ε) → m * q * (1 + ε) ≤ B1 L ε := by
    intro m hm0 hmM hMpos hqq
    have s1 : m * q ≤ M * (L / M * (1 + 5 * ε)) := mul_le_mul hmM hqq hq0.le hMpos.le
    have s2 : M * (L / M * (1 + 5 * ε)) = L * (1 + 5 * ε) := by field_simp
    rw [s2] at s1
    refine le_trans (mul_le_mul_of_nonneg_right s1 (by linarith)) ?_
    unfold B1
    rw [mul_assoc]
    apply mul_le_mul_of_nonneg_left _ hL.le
    nlinarith
  have hTS : ∀ m q, 0 ≤ m * q → m * q * (1 + ε) ≤ 4 * L → T (m * q) := by
    intro m q h0 h1
    exact hR.down _ _ (by nlinarith) hR.T_small.1
  have hscale : ∀ r c p', r < nR → c < nCh → p' < nPol → Cross A r → S r (c * nPol + p') →
      (∀ m, Counted (D r (c * nPol + p')) m → m * q * (1 + ε) ≤ B2 L ε ∧ T (m * q)) := by
    intro r c p' hr hc hp' hcr hs m hm
    have hm0 := hm.nonneg
    have hb : m * q * (1 + ε) ≤ B2 L ε := by
      rcases hqM with h | ⟨hMpos, hqq⟩
      · rw [h, mul_one]
        have := ((hcell r c p' hr hc hp' hcr hs).2 m hm).1
        exact le_trans (mul_le_mul_of_nonneg_right this (by linarith)) hB4
      · exact le_trans (hfac m hm0 (hM.2.1 _ _ m hs hm) hMpos hqq) (B1_le_B2 hL hε0)
    exact ⟨hb, hTS m q (mul_nonneg hm0 hq0.le) (le_trans hb hB24)⟩
  have hlow : 0 ≤ lo1 * q * (1 - ε) :=
    mul_nonneg (mul_nonneg (le_trans hlo0 hlo1) hq0.le) (by linarith)
  refine ⟨?_, ?_⟩
  · intro r c p' hr hc hp' hcr
    rw [hD' r c p' hr hc hp' hcr]
    by_cases hs : S r (c * nPol + p')
    · rw [if_pos hs]
      obtain ⟨hpp, hok'⟩ := hcell r c p' hr hc hp' hcr hs
      refine ⟨fun _ => ?_, fun h => by omega⟩
      exact scale_ok hR.toAcc hq0 hloq hok' (fun m hm => (hscale r c p' hr hc hp' hcr hs m hm).2)
        (fun m hm => (hscale r c p' hr hc hp' hcr hs m hm).1) hlow
    · rw [if_neg hs]
      exact hok.finish hR r c p' hr hc hp' hcr
  · intro hbig
    have hq1 : ¬ q = 1 := by intro h; rw [h] at hbig; norm_num at hbig
    obtain ⟨hMpos, hqq⟩ := hqM.resolve_left hq1
    have hgrow : 1 + 5 / 10000 ≤ q * (1 - ε) := by nlinarith
    have hm' : ∀ r c p', r < nR → c < nCh → p' < nPol → Cross A r → S r (c * nPol + p') →
        ∀ m, Counted (D r (c * nPol + p')) m → m ≠ 0 →
        (1 + 5 / 10000) * m ≤ cellVal ((D r (c * nPol + p')).scale R (.fin q)) := by
      intro r c p' hr hc hp' hcr hs m hm h0
      obtain ⟨m', g1, g2, _⟩ := scale_cell hR.toAcc hq0 hloq (hcell r c p' hr hc hp' hcr hs).2 hm
        (hscale r c p' hr hc hp' hcr hs m hm).2
      have hmpos : 0 < m := lt_of_le_of_ne hm.nonneg (Ne.symm h0)
      have hlt : (1 + 5 / 10000) * m ≤ m' := by
        refine le_trans ?_ g2
        rw [mul_assoc, mul_comm]
        exact mul_le_mul_of_nonneg_left hgrow hmpos.le
      rw [cellVal_counted g1 (by intro h; rw [h] at hlt; linarith)]
      exact hlt
    refine ⟨?_, ?_⟩
    · intro r c p' hr hc hp' hcr
      rw [hD' r c p' hr hc hp' hcr]
      by_cases hs : S r (c * nPol + p')
      · rw [if_pos hs]
        obtain ⟨hpp, hok'⟩ := hcell r c p' hr hc hp' hcr hs
        refine ⟨fun h => by omega, fun _ => ?_⟩
        refine scale_ok hR.toAcc hq0 hloq hok' (fun m hm => (hscale r c p' hr hc hp' hcr hs m hm).2)
          (fun m hm => hfac m hm.nonneg (hM.2.1 _ _ m hs hm) hMpos hqq) ?_
        rw [mul_assoc]
        have : 0 ≤ lo1 := le_trans hlo0 hlo1
        nlinarith
      · rw [if_neg hs]
        exact hok r c p' hr hc hp' hcr
    · obtain ⟨r0, i0, hs0, hc0⟩ : ∃ r i, S r i ∧ Counted (D r i) M := by
        rcases hM.2.2 with h | h
        · exact absurd h hMpos.ne'
        · exact h
      obtain ⟨hr0, hcr0, c0, hcc0, ei0⟩ := hS r0 i0 hs0
      subst ei0
      have hn : c0 * nPol + p < nPol * nCh := chan_lt hcc0 hp
      have hdiv : (r0 * (nPol * nCh) + (c0 * nPol + p)) / (nPol * nCh) = r0 := by
        rw [flat_div hn]
      have hmod : (r0 * (nPol * nCh) + (c0 * nPol + p)) % (nPol * nCh) = c0 * nPol + p := by
        rw [flat_mod hn]
      unfold potential
      refine prodTo_grow (k := r0 * (nPol * nCh) + (c0 * nPol + p)) (flat_lt hr0 hn) ?_ ?_
      · intro j hj
        have hn0 : 0 < nPol * nCh := by omega
        have hr : j / (nPol * nCh) < nR := by rw [Nat.div_lt_iff_lt_mul hn0]; exact hj
        have hi := Nat.mod_lt j hn0
        generalize j / (nPol * nCh) = r at hr
        generalize j % (nPol * nCh) = i at hi
        by_cases hcr : (A r).1 = (A r).2
        · simp [hcr]
        · simp only [hcr, if_false]
          refine ⟨cellVal_pos _, ?_⟩
          have hp0 : 0 < nPol := by omega
          have hp' := Nat.mod_lt i hp0
          have hc : i / nPol < nCh := Nat.div_lt_of_lt_mul hi
          have ei : i / nPol * nPol + i % nPol = i := by rw [Nat.mul_comm]; exact Nat.div_add_mod i nPol
          have hDi := hD' r (i / nPol) (i % nPol) hr hc hp' hcr
          have hm'' := hm' r (i / nPol) (i % nPol) hr hc hp' hcr
          have hce := hcell r (i / nPol) (i % nPol) hr hc hp' hcr
          have hsc := hscale r (i / nPol) (i % nPol) hr hc hp' hcr
          rw [ei] at hDi hm'' hce hsc
          rw [hDi]
          by_cases hs : S r i
          · rw [if_pos hs]
            by_cases hcnt : ∃ m, Counted (D r i) m
            · obtain ⟨m, hm⟩ := hcnt
              by_cases h0 : m = 0
              · rw [h0] at hm
                rw [cellVal_zero hm]
                obtain ⟨m2, g1, g2, g3, _⟩ := scale_cell hR.toAcc hq0 hloq (hce hs).2 hm
                  (hsc hs 0 hm).2
                have : m2 = 0 := by
                  rw [zero_mul, zero_mul] at g2 g3
                  exact le_antisymm g3 g2
                rw [this] at g1
                rw [cellVal_zero g1]
              · rw [cellVal_counted hm h0]
                refine le_trans ?_ (hm'' hs m hm h0)
                have := hm.nonneg
                linarith
            · rw [cellVal_none hcnt, cellVal_none]
              rintro ⟨m', h⟩
              exact hcnt (counted_of_scale hq0 h)
          · rw [if_neg hs]
      · simp only [hdiv, hmod]
        have hcr0' : ¬ (A r0).1 = (A r0).2 := hcr0
        rw [if_neg hcr0', if_neg hcr0', cellVal_counted hc0 hMpos.ne',
          hD' r0 c0 p hr0 hcc0 hp hcr0, if_pos hs0]
        exact hm' r0 c0 p hr0 hcc0 hp hcr0 hs0 M hc0 hMpos.ne'

/-- State during the loop of polarisation `p`. -/
def LoopInv (nR nPol nCh : Nat) (A : Nat → Nat × Nat) (L ε lo1 : ℚ) (mlen : Nat)
    (J : Block Cx × Buf Fl → Prop) (p : Nat) (st : Block Cx × Buf Fl) : Prop :=
  ∃ D, Holds nR (nPol * nCh) A D st.1 ∧ st.2.len = mlen ∧ J st ∧ LoopOk nR nPol nCh A L ε lo1 p D

/-- Potential of a block. -/
def blockPotential (nR n : Nat) (A : Nat → Nat × Nat) (data : Block Cx) : ℚ :=
  potential nR n A (fun r i => (data.get r).vis.get i)

theorem blockPotential_eq {n : Nat} (h : Holds nR n A D data) :
    blockPotential nR n A data = potential nR n A D := by
  unfold blockPotential potential
  have key : ∀ k, k ≤ nR * n → prodTo (fun j => if (A (j / n)).1 = (A (j / n)).2 then 1 else
      cellVal ((data.get (j / n)).vis.get (j % n))) k =
      prodTo (fun j => if (A (j / n)).1 = (A (j / n)).2 then 1 else cellVal (D (j / n) (j % n))) k := by
    intro k
    induction k with
    | zero => intro _; rfl
    | succ k ih =>
      intro hk
      rw [prodTo, prodTo, ih (by omega)]
      have hn0 : 0 < n := Nat.pos_of_ne_zero (by rintro rfl; simp at hk)
      have hr : k / n < nR := by rw [Nat.div_lt_iff_lt_mul hn0]; omega
      rw [h.vis (k / n) (k % n) hr (Nat.mod_lt _ hn0)]
  exact key _ (Nat.le_refl _)

theorem scaleN_zero {f : Fl} {v : Cx} : scaleN R f 0 v = v := rfl

theorem scaleN_one {f : Fl} {v : Cx} : scaleN R f 1 v = v.scale R f := rfl

/-- Every loop ends, within the bounds. -/
theorem loop_terminates {L lo1 : ℚ} (hR : Range R lo T ε L lo1) (hA : AntennasBelow nR nAnt A)
    (hc0 : 0 < nCh) {mlen : Nat} (hml : nPol * nCh + nAnt * nPol ≤ mlen)
    {J : Block Cx × Buf Fl → Prop} (hJ : Kept RF R nPol nCh nAnt J) {p : Nat} (hp : p < nPol)
    (st : Block Cx × Buf Fl) (h : LoopInv nR nPol nCh A L ε lo1 mlen J p st) :
    ∃ N st', LoopInv nR nPol nCh A L ε lo1 mlen J (p + 1) st' ∧
      ∀ fuel, N ≤ fuel → doWhile (fitStep RF R nPol nCh nAnt p (.fin L)) fuel st = some (some st') := by
  have hε := hR.eps_le
  have hε0 := hR.eps_nonneg
  have hL := hR.L_pos
  -- the comparisons with 1.01 and 1.001
  have hthr : ∀ x q : ℚ, 1 + 1 / 1000 ≤ x → x ≤ 2 → Fl.lt (R x) (.fin q) = true → 1 + 9 / 10000 ≤ q := by
    intro x q h1 h2 hlt
    obtain ⟨y, e, hy⟩ := hR.rel x (Or.inr (by
      rw [abs_of_pos (by linarith)]; have := hR.lo_le; linarith))
      (hR.down _ _ (by rw [abs_of_pos (by linarith)]; linarith) hR.T_small.2)
    rw [e] at hlt
    simp only [Fl.lt, decide_eq_true_eq] at hlt
    rw [abs_of_pos (by linarith : (0 : ℚ) < x), abs_le] at hy
    have : x * ε ≤ 2 * (1 / 100000) := mul_le_mul h2 hε hε0 (by norm_num)
    linarith [hy.1]
  refine doWhile_terminates _ (LoopInv nR nPol nCh A L ε lo1 mlen J p)
    (LoopInv nR nPol nCh A L ε lo1 mlen J (p + 1)) (fun st => blockPotential nR (nPol * nCh) A st.1)
    ((1 + B2 L ε) ^ (nR * (nPol * nCh))) (1 + 5 / 10000) (by norm_num) ?_ ?_ ?_ st h
  · rintro st ⟨D, h1, _⟩
    rw [blockPotential_eq h1]
    apply prodTo_pos
    intro j _
    by_cases hc : (A (j / (nPol * nCh))).1 = (A (j / (nPol * nCh))).2
    · simp [hc]
    · simp only [hc, if_false]; exact cellVal_pos _
  · rintro st ⟨D, h1, _, _, hok⟩
    rw [blockPotential_eq h1]
    apply prodTo_le
    intro j hj
    have hB2 : 0 ≤ B2 L ε := by unfold B2; exact mul_nonneg hL.le (by linarith)
    have hn0 : 0 < nPol * nCh := Nat.mul_pos (by omega) hc0
    have hr : j / (nPol * nCh) < nR := by rw [Nat.div_lt_iff_lt_mul hn0]; exact hj
    have hi := Nat.mod_lt j hn0
    generalize j / (nPol * nCh) = r at hr
    generalize j % (nPol * nCh) = i at hi
    by_cases hcr : (A r).1 = (A r).2
    · simp only [hcr, if_true]; exact ⟨one_pos, by linarith⟩
    · simp only [hcr, if_false]
      refine ⟨cellVal_pos _, ?_⟩
      have hp0 : 0 < nPol := by omega
      have hp' := Nat.mod_lt i hp0
      have hc : i / nPol < nCh := Nat.div_lt_of_lt_mul hi
      have ei : i / nPol * nPol + i % nPol = i := by rw [Nat.mul_comm]; exact Nat.div_add_mod i nPol
      obtain ⟨o1, o2⟩ := hok r (i / nPol) (i % nPol) hr hc hp' hcr
      rw [ei] at o1 o2
      have hcell : ∀ m, Counted (D r i) m → m ≤ B2 L ε := by
        intro m hm
        rcases Nat.lt_or_ge (i % nPol) p with h | h
        · exact (o1 h m hm).1
        · exact le_trans (o2 h m hm).1 (B1_le_B2 hL hε0)
      by_cases hcnt : ∃ m, Counted (D r i) m
      · obtain ⟨m, hm⟩ := hcnt
        by_cases h0 : m = 0
        · rw [h0] at hm; rw [cellVal_zero hm]; linarith
        · rw [cellVal_counted hm h0]; linarith [hcell m hm]
      · rw [cellVal_none hcnt]; linarith
  · rintro ⟨data, metaB⟩ ⟨D, h1, h2, h3, hok⟩
    simp only at h1 h2
    rcases fitStep_spec (RF := RF) (RD := R) (maxLevel := .fin L) hc0 h1 hA hp metaB with
      e | ⟨a, M, ha, hM, hf, e⟩ | ⟨c, f, hc, hf, hfM, e⟩
    · refine ⟨_, _, e, fun h => by simp at h, fun _ => ⟨D, h1, h2, h3, hok.finish hR⟩⟩
    · -- an antenna
      have hcells : ∀ r i, (r < nR ∧ AntCell A nPol nCh p a r i) → CellOk lo1 (B1 L ε) (D r i) := by
        rintro r i ⟨hr, hcr, _, c, hc, rfl⟩
        exact (hok r c p hr hc hp hcr).2 (Nat.le_refl _)
      obtain ⟨q, eq, hq0, hqM⟩ : ∃ q, antennaFactor R (.fin L) (.fin M) = .fin q ∧ 0 < q ∧
          (q = 1 ∨ (0 < M ∧ q ≤ L / M * (1 + 5 * ε))) := by
        by_cases h0 : M = 0
        · exact ⟨1, by simp [antennaFactor, h0, Fl.eq], one_pos, Or.inl rfl⟩
        · have hMpos : 0 < M := lt_of_le_of_ne hM.1 (Ne.symm h0)
          have hB : 0 ≤ B1 L ε := by unfold B1; exact mul_nonneg hL.le (by linarith)
          obtain ⟨q, e, g1, g2⟩ := antennaFactor_spec hR hMpos
            (hM.ge (B := fun _ _ => B1 L ε) hcells h0) (hM.le hB hcells)
          exact ⟨q, e, g1, Or.inr ⟨hMpos, g2⟩⟩
      rw [eq] at e hf
      have hq1 : 1 ≤ q := by simpa [Fl.lt] using hf
      obtain ⟨D', data', e', k1, k2, k3⟩ := changeAntenna_spec (RF := RF) (RD := R) h1 metaB ha hp
        (by omega) (.fin q)
      have hj' := hJ.antenna _ _ _ _ _ h3 ha hp hq0 e'
      rw [e', Option.map_some] at e
      classical
      obtain ⟨s1, s2⟩ := loop_step hR hp
        (S := fun r i => r < nR ∧ AntCell A nPol nCh p a r i)
        (fun r i hs => ⟨hs.1, hs.2.1, hs.2.2.2⟩) hM hq1 hqM (D' := D') (by
          intro r c p' hr hc hp' hcr
          by_cases hpp : p' = p
          · subst hpp
            rw [k2 r c hr hc]
            have hcr' : ¬ (A r).1 = (A r).2 := hcr
            by_cases ha1 : (A r).1 = a
            · have ha2 : ¬ (A r).2 = a := fun h => hcr' (by omega)
              rw [if_pos ⟨hr, hcr, Or.inl ha1, c, hc, rfl⟩]
              simp [cnt, ha1, ha2, scaleN_one]
            · by_cases ha2 : (A r).2 = a
              · rw [if_pos ⟨hr, hcr, Or.inr ha2, c, hc, rfl⟩]
                simp [cnt, ha1, ha2, scaleN_one]
              · rw [if_neg (fun hs => by
                  rcases hs.2.2.1 with h | h
                  · exact ha1 h
                  · exact ha2 h)]
                simp [cnt, ha1, ha2, scaleN_zero]
          · rw [k3 r c p' hp' hpp, if_neg (fun hs => by
              obtain ⟨_, _, _, c', _, ee⟩ := hs
              exact hpp (flat_inj hp' hp ee).2)]) hok
      refine ⟨_, _, e, fun hb => ?_, fun _ => ⟨D', k1, h2, hj', s1⟩⟩
      obtain ⟨t1, t2⟩ := s2 (hthr _ _ (by norm_num) (by norm_num) hb)
      refine ⟨⟨D', k1, h2, hj', t1⟩, ?_⟩
      simp only
      rw [blockPotential_eq h1, blockPotential_eq k1]
      exact t2
    · -- a channel
      obtain ⟨M, q, hM, eq, hq0, hqM⟩ : ∃ M q,
          MaxOver (fun r j => r < nR ∧ Cross A r ∧ j = c * nPol + p) D M ∧ f = .fin q ∧ 0 < q ∧
          (q = 1 ∨ (0 < M ∧ q ≤ L / M * (1 + 5 * ε))) := by
        have hcells : ∀ r i, (r < nR ∧ Cross A r ∧ i = c * nPol + p) → CellOk lo1 (B1 L ε) (D r i) := by
          rintro r i ⟨hr, hcr, rfl⟩
          exact (hok r c p hr hc hp hcr).2 (Nat.le_refl _)
        rcases hfM with hf1 | ⟨M, hM, ef⟩
        · obtain ⟨M, _, hM⟩ := crossMax_spec h1 (chan_lt (nPol := nPol) hc hp)
          exact ⟨M, 1, hM, hf1, one_pos, Or.inl rfl⟩
        · by_cases h0 : M = 0
          · exact ⟨M, 1, hM, by rw [ef, h0]; simp [gain, Fl.eq, Fl.add, hR.one], one_pos, Or.inl rfl⟩
          · have hMpos : 0 < M := lt_of_le_of_ne hM.1 (Ne.symm h0)
            have hB : 0 ≤ B1 L ε := by unfold B1; exact mul_nonneg hL.le (by linarith)
            obtain ⟨q, e, g1, g2⟩ := gain_spec hR hMpos
              (hM.ge (B := fun _ _ => B1 L ε) hcells h0) (hM.le hB hcells)
            exact ⟨M, q, hM, by rw [ef, e], g1, Or.inr ⟨hMpos, g2⟩⟩
      rw [eq] at e hf
      have hq1 : 1 ≤ q := by simpa [Fl.lt] using hf
      have hi := chan_lt (nPol := nPol) hc hp
      obtain ⟨D', data', e', k1, k2, k3⟩ := changeChannel_spec (RF := RF) (RD := R) h1 metaB hi
        (by omega) (.fin q)
      have hj' := hJ.channel _ _ _ _ h3 hi hq0 e'
      rw [e', Option.map_some] at e
      classical
      obtain ⟨s1, s2⟩ := loop_step hR hp
        (S := fun r j => r < nR ∧ Cross A r ∧ j = c * nPol + p)
        (fun r i hs => ⟨hs.1, hs.2.1, c, hc, hs.2.2⟩) hM hq1 hqM (D' := D') (by
          intro r c' p' hr hc' hp' hcr
          by_cases hcc : c' * nPol + p' = c * nPol + p
          · rw [if_pos ⟨hr, hcr, hcc⟩, hcc, k2 r hr]
          · rw [if_neg (fun hs => hcc hs.2.2), k3 r _ hcc]) hok
      refine ⟨_, _, e, fun hb => ?_, fun _ => ⟨D', k1, h2, hj', s1⟩⟩
      obtain ⟨t1, t2⟩ := s2 (hthr _ _ (by norm_num) (by norm_num) hb)
      refine ⟨⟨D', k1, h2, hj', t1⟩, ?_⟩
      simp only
      rw [blockPotential_eq h1, blockPotential_eq k1]
      exact t2

/-- All loops end, within the bounds. -/
theorem fitPols_spec {L lo1 : ℚ} (hR : Range R lo T ε L lo1) (hA : AntennasBelow nR nAnt A)
    (hc0 : 0 < nCh) {mlen : Nat} (hml : nPol * nCh + nAnt * nPol ≤ mlen)
    {J : Block Cx × Buf Fl → Prop} (hJ : Kept RF R nPol nCh nAnt J)
    (st : Block Cx × Buf Fl) (h : LoopInv nR nPol nCh A L ε lo1 mlen J 0 st) (p : Nat) (hp : p ≤ nPol) :
    ∃ N st', LoopInv nR nPol nCh A L ε lo1 mlen J p st' ∧
      ∀ fuel, N ≤ fuel → fitPols RF R nPol nCh nAnt (.fin L) fuel p st = some (some st') := by
  induction p with
  | zero => exact ⟨0, st, h, fun _ _ => rfl⟩
  | succ p ih =>
    obtain ⟨N, st1, h1, h2⟩ := ih (by omega)
    obtain ⟨N', st2, h3, h4⟩ := loop_terminates hR hA hc0 hml hJ (by omega : p < nPol) st1 h1
    refine ⟨max N N', st2, h3, ?_⟩
    intro fuel hf
    simp only [fitPols, h2 fuel (le_trans (le_max_left _ _) hf), Option.bind_some]
    exact h4 fuel (le_trans (le_max_right _ _) hf)

/-- `fitToMaximum` ends; afterwards every cross-correlation is within `B2`. -/
theorem fitToMaximum_spec {L lo0 B0 lo1 : ℚ} (hR : InRange R lo T ε L lo0 B0 lo1)
    (hA : AntennasBelow nR nAnt A) (hc0 : 0 < nCh)
    {J : Block Cx × Buf Fl → Prop} (hJ : Kept RF R nPol nCh nAnt J)
    (h : Holds nR (nPol * nCh) A D data) (metaB : Buf Fl) (hb : nPol * nCh + nAnt * nPol ≤ metaB.len)
    (hD : CrossOk nR (nPol * nCh) A D lo0 B0) (hj : J (data, metaB)) :
    ∃ N D' st', (∀ fuel, N ≤ fuel →
        fitToMaximum RF R nPol nCh nAnt (.fin L) fuel (data, metaB) = some (some st')) ∧
      Holds nR (nPol * nCh) A D' st'.1 ∧ st'.2.len = metaB.len ∧ J st' ∧
      CrossOk nR (nPol * nCh) A D' 0 (B2 L ε) := by
  obtain ⟨D1, st1, e1, h1, h2, h3, h4⟩ := fitChannels_spec hR hJ h metaB (by omega) hD hj
  obtain ⟨N, st2, ⟨D2, k1, k2, k3, k4⟩, e2⟩ := fitPols_spec hR.toRange hA hc0 hb hJ st1
    ⟨D1, h1, h2, h3, fun r c p' hr hc hp' hcr => ⟨fun h => by omega,
      fun _ => h4 r _ hr (chan_lt hc hp') hcr⟩⟩ nPol (Nat.le_refl _)
  refine ⟨N, D2, st2, ?_, k1, k2, k3, ?_⟩
  · intro fuel hf
    unfold fitToMaximum
    rw [e1, Option.bind_some, e2 fuel hf]
  · intro r i hr hi hcr
    have hp0 : 0 < nPol := Nat.pos_of_ne_zero (by rintro rfl; simp at hi)
    have hp' := Nat.mod_lt i hp0
    have hc : i / nPol < nCh := Nat.div_lt_of_lt_mul hi
    have ei : i / nPol * nPol + i % nPol = i := by rw [Nat.mul_comm]; exact Nat.div_add_mod i nPol
    have := (k4 r (i / nPol) (i % nPol) hr hc hp' hcr).1 hp'
    rwa [ei] at this

end AF

end Dysco
