import Verif.StochasticModel
import Verif.DictionaryProps
import Verif.FlLemmas

/-! # Helper lemmas for the stochastic encoder -/

namespace Dysco.Stochastic

open Dictionary

section congr
variable {α β : Type}

theorem probeStep_congr (c : Cmp α) (c' : Cmp β) (d : Dict α) (d' : Dict β) (x : α) (y : β)
    (hn : d.n = d'.n) (h : ∀ i, i < d.n → c.lt (d.v i) x = c'.lt (d'.v i) y) (step : Nat) (s : S) :
    probeStep c d x step s = probeStep c' d' y step s := by
  unfold probeStep
  simp only [← hn]
  by_cases hb : s.it + min step (d.n - 1) < d.n
  · have hb' : s.it + min step (d.n - 1) < d'.n := hn ▸ hb
    rw [if_pos hb, if_pos hb, rd_lt hb, rd_lt hb']
    simp only [h _ hb]
  · rw [if_neg hb, if_neg hb]

theorem loop_congr (c : Cmp α) (c' : Cmp β) (d : Dict α) (d' : Dict β) (x : α) (y : β)
    (hn : d.n = d'.n) (h : ∀ i, i < d.n → c.lt (d.v i) x = c'.lt (d'.v i) y) :
    ∀ (step : Nat) (s : S), branchlessLoop c d x step s = branchlessLoop c' d' y step s := by
  intro step
  induction step using Nat.strongRecOn with
  | ind step ih =>
    intro s
    rw [branchlessLoop, branchlessLoop, probeStep_congr c c' d d' x y hn h step s]
    by_cases h0 : step = 0
    · rw [if_pos h0, if_pos h0]
    · rw [if_neg h0, if_neg h0]
      cases probeStep c' d' y step s with
      | none => rfl
      | some s' => exact ih (step / 2) (by omega) s'

theorem finish_congr (c : Cmp α) (c' : Cmp β) (d : Dict α) (d' : Dict β) (x : α) (y : β)
    (hn : d.n = d'.n) (h : ∀ i, i < d.n → c.lt (d.v i) x = c'.lt (d'.v i) y) (s : S) :
    finish c d x s = finish c' d' y s := by
  unfold finish
  rw [← hn]
  by_cases hb : s.it < d.n
  · have hb' : s.it < d'.n := hn ▸ hb
    rw [if_pos hb, if_pos hb, rd_lt hb, rd_lt hb']
    simp only [h _ hb]
  · rw [if_neg hb, if_neg hb]

/-- The search only depends on the outcomes of the comparisons. -/
theorem lowerBound_congr (c : Cmp α) (c' : Cmp β) (d : Dict α) (d' : Dict β) (x : α) (y : β)
    (hn : d.n = d'.n) (h : ∀ i, i < d.n → c.lt (d.v i) x = c'.lt (d'.v i) y) :
    lowerBound c d x = lowerBound c' d' y := by
  unfold lowerBound branchlessTwoMin
  simp only
  rw [probeStep_congr c c' d d' x y hn h, hn]
  congr 1
  cases probeStep c' d' y (bitFloor d'.n) ⟨0, 0⟩ with
  | none => rfl
  | some s =>
    simp only
    rw [loop_congr c c' d d' x y hn h]
    cases branchlessLoop c' d' y (bitFloor d'.n / 2) s with
    | none => rfl
    | some s' => exact finish_congr c c' d d' x y hn h s'

end congr

/-- Search in a table of finite values. -/
theorem lowerBound_fl (n : Nat) (hn : 2 ≤ n) (v : Nat → Fl) (b : Nat → ℚ)
    (hb : ∀ i, i < n → v i = .fin (b i)) (hs : Ascending n b) (x : ℚ) :
    ∃ i, lowerBound flCmp ⟨n, v⟩ (.fin x) = some i ∧ FirstNotLess n b x i := by
  obtain ⟨i, e, h⟩ := lowerBound_correct (α := ℚ) ⟨n, b⟩ hn hs x
  refine ⟨i, ?_, h⟩
  rw [← e]
  apply lowerBound_congr flCmp (ordCmp ℚ) ⟨n, v⟩ ⟨n, b⟩ (.fin x) x rfl
  intro i hi
  simp only [flCmp, ordCmp, hb i hi, Fl.lt]

theorem symbol_false (i : Nat) : symbol false i = some i := by simp [symbol]

/-- Contents of the tables after `k` iterations. -/
structure Filled (q : Nat) (F : ℚ → Fl) (e0 d0 : Nat → Fl) (k : Nat) (f : Fill) : Prop where
  di : f.di = k
  ei : f.ei = k - 1
  dec : ∀ j, f.dec j = if j < k then F ((j + 1 / 2) / ((q - 1 : Nat) : ℚ)) else d0 j
  enc : ∀ j, f.enc j = if j + 1 < k then F ((j + 1 : Nat) / ((q - 1 : Nat) : ℚ)) else e0 j

theorem fillStep_filled (q : Nat) (F : ℚ → Fl) (e0 d0 : Nat → Fl) (k : Nat) (f : Fill)
    (hk : k < q - 1) (h : Filled q F e0 d0 k f) :
    ∃ g, fillStep q F k f = some g ∧ Filled q F e0 d0 (k + 1) g := by
  obtain ⟨h1, h2, h3, h4⟩ := h
  by_cases hk0 : k = 0
  · subst hk0
    refine ⟨_, by
      simp only [fillStep, Fill.putDec]
      rw [if_neg (by omega)]
      simp only
      rw [if_pos (by omega)]
      rfl, ?_⟩
    refine ⟨by simp [h1], by simpa using h2, ?_, ?_⟩
    · intro j
      simp only [h3 j]
      by_cases hj : j = 0
      · subst hj
        rw [if_pos h1.symm, if_pos (by omega)]
      · rw [if_neg (by omega), if_neg (by omega), if_neg (by omega)]
    · intro j
      simp only [h4 j]
      rw [if_neg (by omega), if_neg (by omega)]
  · refine ⟨_, by
      simp only [fillStep, Fill.putEnc, Fill.putDec]
      rw [if_pos hk0, if_pos (by omega)]
      simp only [Option.map_some]
      rw [if_pos (by omega)]
      rfl, ?_⟩
    refine ⟨by simp [h1], by simp [h2]; omega, ?_, ?_⟩
    · intro j
      simp only [h3 j, h1]
      by_cases hj : j = k
      · subst hj; simp
      · by_cases hj2 : j < k
        · rw [if_neg hj, if_pos hj2, if_pos (by omega)]
        · rw [if_neg hj, if_neg hj2, if_neg (by omega)]
    · intro j
      simp only [h4 j, h2]
      by_cases hj : j = k - 1
      · subst hj
        rw [if_pos rfl, if_pos (by omega)]
        have : k - 1 + 1 = k := by omega
        rw [this]
      · by_cases hj2 : j + 1 < k
        · rw [if_neg hj, if_pos hj2, if_pos (by omega)]
        · rw [if_neg hj, if_neg hj2, if_neg (by omega)]

theorem fillLoop_filled (q : Nat) (F : ℚ → Fl) (e0 d0 : Nat → Fl) :
    ∀ (r k : Nat) (f : Fill), k + r = q - 1 → Filled q F e0 d0 k f →
      ∃ g, fillLoop q F r k f = some g ∧ Filled q F e0 d0 (q - 1) g := by
  intro r
  induction r with
  | zero =>
    intro k f hk hf
    have : k = q - 1 := by omega
    subst this
    exact ⟨f, rfl, hf⟩
  | succ r ih =>
    intro k f hk hf
    obtain ⟨g, e, hg⟩ := fillStep_filled q F e0 d0 k f (by omega) hf
    obtain ⟨g', e', hg'⟩ := ih (k + 1) g (by omega) hg
    exact ⟨g', by rw [fillLoop, e]; exact e', hg'⟩

/-- Explicit contents of constructed tables. -/
theorem construct_spec (q : Nat) (hq : 2 ≤ q) (F : ℚ → Fl) (e0 d0 : Nat → Fl) :
    ∃ e, construct q F e0 d0 = some e ∧ e.n = q - 1 ∧ e.cap = q ∧
      (∀ j, j < q - 1 → e.level j = F ((j + 1 / 2) / ((q - 1 : Nat) : ℚ))) ∧
      (∀ j, j < q - 2 → e.bound j = F ((j + 1 : Nat) / ((q - 1 : Nat) : ℚ))) ∧
      e.bound (q - 2) = .fin fltMax ∧ e.level (q - 1) = .nan := by
  obtain ⟨g, e1, h1, h2, h3, h4⟩ := fillLoop_filled q F e0 d0 (q - 1) 0 ⟨e0, d0, 0, 0⟩ (by omega)
    ⟨rfl, rfl, by simp, by simp⟩
  have hd : g.di < q := by omega
  have he : g.ei < q - 1 := by omega
  refine ⟨_, by
    simp only [construct, e1, Fill.putEnc, Fill.putDec]
    rw [if_pos he]
    simp only
    rw [if_pos hd], rfl, rfl, ?_, ?_, ?_, ?_⟩
  · intro j hj
    simp only [h1, h3 j]
    rw [if_neg (by omega), if_pos hj]
  · intro j hj
    simp only [h2, h4 j]
    rw [if_neg (by omega), if_pos (by omega)]
  · simp only [h2]
    rw [if_pos (by omega)]
  · simp only [h1]
    exact if_pos trivial

end Dysco.Stochastic
