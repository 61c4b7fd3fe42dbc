import Verif.DictionaryModel
import Mathlib.Order.Defs.LinearOrder
import Mathlib.Order.Basic

/-! # Helper lemmas for the dictionary searches -/

namespace Dysco.Dictionary

variable {α : Type}

theorem rd_lt {d : Dict α} {i : Nat} (h : i < d.n) : rd d i = some (d.v i) := by
  simp [rd, h]

theorem bitFloor_pos (n : Nat) : 0 < bitFloor n := by unfold bitFloor; exact Nat.two_pow_pos _

theorem bitFloor_le {n : Nat} (h : n ≠ 0) : bitFloor n ≤ n := by
  unfold bitFloor; exact Nat.log2_self_le h

theorem lt_two_bitFloor (n : Nat) : n < 2 * bitFloor n := by
  unfold bitFloor
  have := @Nat.lt_log2_self n
  rw [Nat.pow_succ] at this
  omega

/-- Any property of the position preserved by accepted probes is preserved by a step. -/
theorem probeStep_some (c : Cmp α) (d : Dict α) (val : α) (step : Nat) (s : S) :
    ∃ s', probeStep c d val step s = some s' ∧
      s'.formed = max s.formed (s.it + min step (d.n - 1)) ∧
      ((s'.it = s.it + min step (d.n - 1) ∧ s'.it < d.n ∧ c.lt (d.v s'.it) val = true) ∨
       (s'.it = s.it ∧ (d.n ≤ s.it + min step (d.n - 1) ∨
          c.lt (d.v (s.it + min step (d.n - 1))) val = false))) := by
  unfold probeStep
  simp only
  by_cases h : s.it + min step (d.n - 1) < d.n
  · rw [if_pos h, rd_lt h]
    cases hc : c.lt (d.v (s.it + min step (d.n - 1))) val with
    | true => exact ⟨_, rfl, rfl, Or.inl (by simp only [hc, if_true]; simp [h])⟩
    | false => exact ⟨_, rfl, rfl, Or.inr (by simp [hc])⟩
  · rw [if_neg h]
    exact ⟨_, rfl, rfl, Or.inr ⟨rfl, Or.inl (by omega)⟩⟩

theorem loop_some (c : Cmp α) (d : Dict α) (val : α) :
    ∀ (step : Nat) (s : S), s.it < d.n →
      ∃ s', branchlessLoop c d val step s = some s' ∧ s'.it < d.n := by
  intro step
  induction step using Nat.strongRecOn with
  | ind step ih =>
    intro s hs
    rw [branchlessLoop]
    by_cases h0 : step = 0
    · rw [if_pos h0]; exact ⟨s, rfl, hs⟩
    · rw [if_neg h0]
      obtain ⟨s1, e1, _, hc⟩ := probeStep_some c d val step s
      rw [e1]
      have hs1 : s1.it < d.n := by
        rcases hc with ⟨_, h, _⟩ | ⟨h, _⟩ <;> omega
      exact ih (step / 2) (by omega) s1 hs1

theorem finish_some (c : Cmp α) (d : Dict α) (val : α) (s : S) (hs : s.it < d.n) :
    finish c d val s = some (if c.lt (d.v s.it) val then ⟨s.it + 1, max s.formed (s.it + 1)⟩ else s) := by
  unfold finish
  rw [if_pos hs, rd_lt hs]
  cases hc : c.lt (d.v s.it) val <;> simp [hc]

/-- Ghost bound: when `it + 2*step ≤ b`, no pointer above `b - 1` is formed. -/
theorem loop_formed (c : Cmp α) (d : Dict α) (val : α) (k : Nat) (hk : d.n + 1 = 2 ^ k) :
    ∀ (j : Nat) (s s' : S), s.it < d.n → s.it + 2 ^ (j + 1) ≤ 2 ^ k → s.formed ≤ d.n →
      branchlessLoop c d val (2 ^ j) s = some s' → s'.formed ≤ d.n := by
  have zero : ∀ s : S, branchlessLoop c d val 0 s = some s := by
    intro s; rw [branchlessLoop, if_pos rfl]
  have stepBound : ∀ (j : Nat) (s s1 : S), s.it < d.n → s.it + 2 ^ (j + 1) ≤ 2 ^ k →
      s.formed ≤ d.n → probeStep c d val (2 ^ j) s = some s1 →
      s1.it < d.n ∧ s1.it + 2 ^ j ≤ 2 ^ k ∧ s1.formed ≤ d.n := by
    intro j s s1 hs hb hf e
    have hp : 0 < 2 ^ j := Nat.two_pow_pos j
    have h2 : 2 ^ (j + 1) = 2 * 2 ^ j := by rw [Nat.pow_succ]; omega
    obtain ⟨s2, e2, f2, c2⟩ := probeStep_some c d val (2 ^ j) s
    rw [e] at e2
    cases e2
    have hmin : min (2 ^ j) (d.n - 1) ≤ 2 ^ j := Nat.min_le_left _ _
    refine ⟨?_, ?_, ?_⟩
    · rcases c2 with ⟨_, h, _⟩ | ⟨h, _⟩ <;> omega
    · rcases c2 with ⟨h, _⟩ | ⟨h, _⟩ <;> omega
    · omega
  intro j
  induction j with
  | zero =>
    intro s s' hs hb hf e
    rw [branchlessLoop, if_neg (by simp)] at e
    cases hp : probeStep c d val (2 ^ 0) s with
    | none => rw [hp] at e; simp at e
    | some s1 =>
      rw [hp] at e
      simp only [Nat.pow_zero, Nat.reduceDiv, zero, Option.some.injEq] at e
      subst e
      exact (stepBound 0 s s1 hs hb hf hp).2.2
  | succ j ih =>
    intro s s' hs hb hf e
    have hpos : 0 < 2 ^ j := Nat.two_pow_pos j
    have h2 : 2 ^ (j + 1) = 2 * 2 ^ j := by rw [Nat.pow_succ]; omega
    rw [branchlessLoop, if_neg (by omega)] at e
    cases hp : probeStep c d val (2 ^ (j + 1)) s with
    | none => rw [hp] at e; simp at e
    | some s1 =>
      rw [hp] at e
      have hh : 2 ^ (j + 1) / 2 = 2 ^ j := by omega
      simp only [hh] at e
      obtain ⟨a1, a2, a3⟩ := stepBound (j + 1) s s1 hs hb hf hp
      exact ih s1 s' a1 a2 a3 e

theorem bisect_some (c : Cmp α) (d : Dict α) (val : α) :
    ∀ (m p q : Nat), q - p = m → p < q → q ≤ d.n →
      ∃ p' q', bisect c d val p q = some (p', q') ∧ p' + 1 = q' ∧ p ≤ p' ∧ q' ≤ q ∧
        (p' = p ∨ c.le (d.v p') val = true) ∧ (q' = q ∨ c.le (d.v q') val = false) := by
  intro m
  induction m using Nat.strongRecOn with
  | ind m ih =>
    intro p q hm hpq hq
    rw [bisect]
    by_cases h1 : p + 1 = q
    · rw [if_pos h1]; exact ⟨p, q, rfl, h1, by omega, by omega, Or.inl rfl, Or.inl rfl⟩
    · rw [if_neg h1, dif_neg (by omega), rd_lt (by omega)]
      cases hc : c.le (d.v ((p + q) / 2)) val with
      | true =>
        obtain ⟨p', q', e, h2, h3, h4, h5, h6⟩ := ih (q - (p + q) / 2) (by omega) ((p + q) / 2) q rfl
          (by omega) hq
        refine ⟨p', q', by simpa [hc] using e, h2, by omega, h4, ?_, h6⟩
        rcases h5 with h5 | h5
        · right; rw [h5]; exact hc
        · exact Or.inr h5
      | false =>
        obtain ⟨p', q', e, h2, h3, h4, h5, h6⟩ := ih ((p + q) / 2 - p) (by omega) p ((p + q) / 2) rfl
          (by omega) (by omega)
        refine ⟨p', q', by simpa [hc] using e, h2, h3, by omega, h5, ?_⟩
        rcases h6 with h6 | h6
        · right; rw [h6]; exact hc
        · exact Or.inr h6

theorem bisectSlow_some (c : Cmp α) (d : Dict α) (val : α) :
    ∀ (m p q : Nat), q - p = m → p < q → q ≤ d.n →
      ∃ p' q', bisectSlow c d val p q = some (p', q') ∧ p' + 1 = q' ∧ p ≤ p' ∧ q' ≤ q ∧
        (p' = p ∨ c.le (d.v p') val = true) ∧ (q' = q ∨ c.le (d.v q') val = false) := by
  intro m
  induction m using Nat.strongRecOn with
  | ind m ih =>
    intro p q hm hpq hq
    rw [bisectSlow]
    by_cases h1 : p + 1 = q
    · rw [if_pos h1]; exact ⟨p, q, rfl, h1, by omega, by omega, Or.inl rfl, Or.inl rfl⟩
    · rw [if_neg h1, dif_neg (by omega), rd_lt (by omega)]
      cases hc : c.le (d.v (p + (q - p) / 2)) val with
      | true =>
        obtain ⟨p', q', e, h2, h3, h4, h5, h6⟩ := ih (q - (p + (q - p) / 2)) (by omega)
          (p + (q - p) / 2) q rfl (by omega) hq
        refine ⟨p', q', by simpa [hc] using e, h2, by omega, h4, ?_, h6⟩
        rcases h5 with h5 | h5
        · right; rw [h5]; exact hc
        · exact Or.inr h5
      | false =>
        obtain ⟨p', q', e, h2, h3, h4, h5, h6⟩ := ih (p + (q - p) / 2 - p) (by omega) p
          (p + (q - p) / 2) rfl (by omega) (by omega)
        refine ⟨p', q', by simpa [hc] using e, h2, h3, by omega, h5, ?_⟩
        rcases h6 with h6 | h6
        · right; rw [h6]; exact hc
        · exact Or.inr h6

section sorted

variable [LinearOrder α]

/-- The comparisons of a linear order (floats without NaN). -/
def ordCmp (α : Type) [LinearOrder α] : Cmp α where
  lt a b := decide (a < b)
  le a b := decide (a ≤ b)

/-- Loop invariant of the branchless searches: everything at or after `it + 2*step` is `≥ val`,
and `it` is either the start or holds an element below `val`. -/
structure Inv (d : Dict α) (val : α) (w : Nat) (s : S) : Prop where
  lt : s.it < d.n
  left : s.it = 0 ∨ d.v s.it < val
  right : ∀ j, s.it + w ≤ j → j < d.n → ¬ d.v j < val

theorem probeStep_inv (d : Dict α) (hsort : ∀ i j, i ≤ j → j < d.n → d.v i ≤ d.v j) (val : α)
    (step : Nat) (s s' : S)
    (_hle : step < d.n ∨ (step = d.n ∧ s.it = 0))
    (hI : Inv d val (2 * step) s) (e : probeStep (ordCmp α) d val step s = some s') :
    Inv d val step s' := by
  obtain ⟨s2, e2, _, c2⟩ := probeStep_some (ordCmp α) d val step s
  rw [e] at e2
  cases e2
  have hn := hI.lt
  rcases c2 with ⟨h1, h2, h3⟩ | ⟨h1, h2⟩
  · have h3' : d.v s'.it < val := by simpa [ordCmp] using h3
    refine ⟨h2, Or.inr h3', ?_⟩
    intro j hj hjn
    rcases Nat.lt_or_ge step d.n with hlt | hge
    · have : min step (d.n - 1) = step := by omega
      apply hI.right j _ hjn
      omega
    · omega
  · refine ⟨by omega, by rw [h1]; exact hI.left, ?_⟩
    intro j hj hjn
    rcases h2 with h2 | h2
    · exfalso
      have : min step (d.n - 1) ≤ step := Nat.min_le_left _ _
      omega
    · have h2' : ¬ d.v (s.it + min step (d.n - 1)) < val := by simpa [ordCmp] using h2
      intro hlt
      apply h2'
      exact lt_of_le_of_lt (hsort _ j (by omega) hjn) hlt

omit [LinearOrder α] in
theorem loop_zero (c : Cmp α) (d : Dict α) (val : α) (s : S) :
    branchlessLoop c d val 0 s = some s := by rw [branchlessLoop, if_pos rfl]

/-- Invariant of the part of the loop after a step of size `2^k` has been done. -/
theorem loop_inv (d : Dict α) (hsort : ∀ i j, i ≤ j → j < d.n → d.v i ≤ d.v j) (val : α) :
    ∀ (k : Nat) (s s' : S), 2 ^ k ≤ d.n →
      Inv d val (2 ^ k) s → branchlessLoop (ordCmp α) d val (2 ^ k / 2) s = some s' →
      Inv d val 1 s' := by
  intro k
  induction k with
  | zero =>
    intro s s' _ hI e
    simp only [Nat.pow_zero, Nat.reduceDiv, loop_zero, Option.some.injEq] at e
    subst e
    exact hI
  | succ k ih =>
    intro s s' hle hI e
    have hp : 0 < 2 ^ k := Nat.two_pow_pos k
    have h2 : 2 ^ (k + 1) = 2 * 2 ^ k := by rw [Nat.pow_succ]; omega
    have hh : 2 ^ (k + 1) / 2 = 2 ^ k := by omega
    rw [hh, branchlessLoop, if_neg (by omega)] at e
    cases hps : probeStep (ordCmp α) d val (2 ^ k) s with
    | none => rw [hps] at e; simp at e
    | some s1 =>
      rw [hps] at e
      rw [h2] at hI
      exact ih s1 s' (by omega) (probeStep_inv d hsort val _ s s1 (by omega) hI hps) e

/-- State after the first step with `bitFloor n`. -/
theorem first_inv (d : Dict α) (hsort : ∀ i j, i ≤ j → j < d.n → d.v i ≤ d.v j) (val : α)
    (hn : 1 ≤ d.n) (s' : S)
    (e : probeStep (ordCmp α) d val (bitFloor d.n) ⟨0, 0⟩ = some s') :
    Inv d val (bitFloor d.n) s' := by
  have h1 := bitFloor_le (n := d.n) (by omega)
  have h2 := lt_two_bitFloor d.n
  refine probeStep_inv d hsort val _ ⟨0, 0⟩ s' ?_ ⟨by simp; omega, Or.inl rfl, ?_⟩ e
  · simp; omega
  · intro j hj hjn
    simp at hj
    omega

theorem inv_finish (d : Dict α) (hsort : ∀ i j, i ≤ j → j < d.n → d.v i ≤ d.v j) (val : α)
    (s : S) (hI : Inv d val 1 s) :
    ∃ r, finish (ordCmp α) d val s = some r ∧ r.it ≤ d.n ∧ (∀ j, j < r.it → d.v j < val) ∧
      (∀ j, r.it ≤ j → j < d.n → ¬ d.v j < val) := by
  refine ⟨_, finish_some (ordCmp α) d val s hI.lt, ?_⟩
  have hlt := hI.lt
  by_cases hc : d.v s.it < val
  · have hc' : (ordCmp α).lt (d.v s.it) val = true := by simpa [ordCmp] using hc
    rw [if_pos hc']
    refine ⟨by simp; omega, ?_, ?_⟩
    · intro j hj
      simp at hj
      exact lt_of_le_of_lt (hsort j s.it (by omega) hlt) hc
    · intro j hj hjn
      exact hI.right j (by simpa using hj) hjn
  · have hc' : ¬ (ordCmp α).lt (d.v s.it) val = true := by simpa [ordCmp] using hc
    rw [if_neg hc']
    have h0 : s.it = 0 := by
      rcases hI.left with h | h
      · exact h
      · exact absurd h hc
    refine ⟨by omega, ?_, ?_⟩
    · intro j hj; omega
    · intro j _ hjn hv
      exact hc (lt_of_le_of_lt (hsort s.it j (by omega) hjn) hv)

end sorted

end Dysco.Dictionary
