import Verif.QuantileProps
import Verif.StochasticSym

/-! # C120: the symmetry of the Gaussian and the uniform table as computed -/

namespace Dysco.Quantile
open Stochastic

/-- **C120** With an even number of quantities (every number of bits) and a value of zero for the fraction one
half, zero is a level. -/
theorem middle_zero (q : Nat) (hq : 4 ≤ q) (he : q % 2 = 0) (F : ℚ → Fl) (h : F (1 / 2) = .fin 0) (e0 d0 : Nat → Fl) :
    ∃ e, construct q F e0 d0 = some e ∧ e.decode (q / 2 - 1) = some (.fin 0) := by
  obtain ⟨e, h1, h2, h3, h4, -⟩ := construct_spec q (by omega) F e0 d0
  refine ⟨e, h1, ?_⟩
  have hn : (((q / 2 - 1 : Nat) : ℚ) + 1 / 2) / ((q - 1 : Nat) : ℚ) = 1 / 2 := by
    obtain ⟨k, rfl⟩ : ∃ k, q = 2 * (k + 1) := ⟨q / 2 - 1, by omega⟩
    rw [show 2 * (k + 1) / 2 - 1 = k by omega, show 2 * (k + 1) - 1 = 2 * k + 1 by omega]
    have : ((2 * k + 1 : Nat) : ℚ) ≠ 0 := by exact_mod_cast (by omega : 2 * k + 1 ≠ 0)
    rw [div_eq_iff this]
    push_cast
    ring
  rw [Encoder.decode, if_pos (by omega), h4 _ (by omega), hn, h]

theorem half_repr : Fl.rnd extended (1 / 2) = 1 / 2 := by
  refine Fl.rnd_of_repr (by decide) ?_
  refine ⟨1, -1, ?_, ?_, ?_⟩ <;> norm_num [extended]

/-- **C120** Zero is a level of the computed Gaussian table. -/
theorem gaussian_zero (q : Nat) (hq : 4 ≤ q) (he : q % 2 = 0) (P : ℚ → ℚ) (err : ℚ) (fuel : Nat) (sd : ℚ)
    (e0 d0 : Nat → Fl) :
    ∃ e, construct q (gaussF (Fl.round extended) (Fl.rnd extended) P err fuel sd) e0 d0 = some e ∧
      e.decode (q / 2 - 1) = some (.fin 0) := by
  refine middle_zero q hq he _ ?_ e0 d0
  have h0 : ∀ f : Fl.Fmt, Fl.round f 0 = .fin 0 := fun f => by
    rw [Fl.round, Fl.rnd_zero, if_pos (by rw [abs_zero]; positivity)]
  simp only [gaussF, half_repr, inv, lt_irrefl, if_false, if_true, Fl.mul, mul_zero, h0, Fl.cast]
  exact h0 _

/-- **C120** Zero is a level of the computed uniform table. -/
theorem uniform_zero (q : Nat) (hq : 4 ≤ q) (he : q % 2 = 0) (sd : ℚ) (e0 d0 : Nat → Fl) :
    ∃ e, construct q (uniformLD (Fl.round extended) (Fl.rnd extended) sd) e0 d0 = some e ∧
      e.decode (q / 2 - 1) = some (.fin 0) := by
  refine middle_zero q hq he _ ?_ e0 d0
  have h0 : ∀ f : Fl.Fmt, Fl.round f 0 = .fin 0 := fun f => by
    rw [Fl.round, Fl.rnd_zero, if_pos (by rw [abs_zero]; positivity)]
  have h1 : Fl.rnd extended 1 = 1 := by
    have := Fl.rnd_of_repr (by decide) (repr_small (n := 1) (by norm_num))
    simpa using this
  have h2 : (2 : ℚ) * (1 / 2) = 1 := by norm_num
  simp only [uniformLD, h2, h1, neg_add_cancel, Fl.rnd_zero, Fl.mul, mul_zero, h0, Fl.cast]
  exact h0 _

/-- `invCumulative` does not use its recursion from one half on. -/
theorem inv_upper {R P : ℚ → ℚ} {err : ℚ} {fuel d : Nat} {c : ℚ} (h : 1 / 2 ≤ c) :
    inv R P err fuel (d + 1) c = inv R P err fuel 1 c := by
  simp only [inv, not_lt.mpr h, if_false]

/-- **C120** With exact fractions, the value for `1 - c` is minus the value for `c`, whatever the cumulative
distribution is and how far the bisection gets: only one half of the curve is computed (line 25 of the code). -/
theorem gauss_odd {R : ℚ → Fl} (hR : ∀ x, R (-x) = (R x).neg) (P : ℚ → ℚ) (err : ℚ) (fuel : Nat) (sd : ℚ)
    {c : ℚ} (h0 : 0 < c) (h1 : c < 1) :
    gaussF R id P err fuel sd (1 - c) = (gaussF R id P err fuel sd c).neg := by
  have r32 : ∀ x, Fl.r32 (-x) = (Fl.r32 x).neg := fun x => by
    unfold Fl.r32 Fl.round
    rw [Fl.rnd_neg, abs_neg]
    split
    · rfl
    · rename_i hx
      have : x ≠ 0 := by
        rintro rfl
        exact hx (by rw [Fl.rnd_zero, abs_zero]; positivity)
      simp only [Fl.neg, Fl.inf.injEq, Left.neg_neg_iff]
      rcases lt_or_gt_of_ne this with h | h
      · simp [h, h.le]
      · simp [h, h.le]
  have fin : ∀ x : Fl, Fl.cast Fl.r32 (Fl.mul R (.fin sd) x.neg) = (Fl.cast Fl.r32 (Fl.mul R (.fin sd) x)).neg := by
    have cast : ∀ y : Fl, Fl.cast Fl.r32 y.neg = (Fl.cast Fl.r32 y).neg := by
      rintro (a | n | _)
      · exact r32 a
      · rfl
      · rfl
    intro x
    rw [← cast]
    congr 1
    rcases x with a | n | _
    · simp only [Fl.neg, Fl.mul, mul_neg]
      exact hR _
    · simp only [Fl.neg, Fl.mul]
      split
      · rfl
      · cases n <;> cases decide (sd < 0) <;> rfl
    · rfl
  -- the lower half follows from the upper half
  have low : ∀ d, 1 / 2 < d → d < 1 →
      gaussF R id P err fuel sd (1 - d) = (gaussF R id P err fuel sd d).neg := by
    intro d hd _
    have e1 : inv id P err fuel 2 (1 - d) = (inv id P err fuel 1 d).map Fl.neg := by
      rw [inv, if_pos (by linarith)]
      simp
    have e2 : inv id P err fuel 2 d = inv id P err fuel 1 d := inv_upper (by linarith)
    unfold gaussF
    simp only [id, e1, e2]
    cases inv id P err fuel 1 d with
    | none => rfl
    | some x => exact fin x
  rcases lt_trichotomy c (1 / 2) with h | h | h
  · have := low (1 - c) (by linarith) (by linarith)
    rw [sub_sub_cancel] at this
    rw [this]
    cases gaussF R id P err fuel sd (1 - c) <;> simp [Fl.neg]
  · subst h
    have z : gaussF R id P err fuel sd (1 / 2) = Fl.cast Fl.r32 (Fl.mul R (.fin sd) (.fin 0)) := by
      simp [gaussF, inv]
    have := fin (.fin 0)
    rw [show (1 : ℚ) - 1 / 2 = 1 / 2 by norm_num, z, ← this]
    simp [Fl.neg]
  · exact low c h h1

example : (∀ x, Fl.exact (-x) = (Fl.exact x).neg) ∧ (0 : ℚ) < 3 / 10 ∧ (3 / 10 : ℚ) < 1 :=
  ⟨fun _ => rfl, by norm_num, by norm_num⟩

/-- 8 bits: 255 levels, and level 127 is zero. -/
example : 4 ≤ 2 ^ 8 ∧ 2 ^ 8 % 2 = 0 ∧ 2 ^ 8 / 2 - 1 = 127 := by decide

end Dysco.Quantile
