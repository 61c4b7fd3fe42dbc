import Verif.StochasticProps

/-! # C120: quantisers are symmetric around zero -/

namespace Dysco.Stochastic

/-- The quantile function is odd around one half, as that of every symmetric distribution. -/
def OddOn (q : Nat) (G : ℚ → ℚ) : Prop := ∀ c, OnGrid q c → OnGrid q (1 - c) → G (1 - c) = -G c

theorem mirror_level {n s : Nat} (hs : s < n) :
    (((n - 1 - s : Nat) : ℚ) + 1 / 2) / (n : ℚ) = 1 - ((s : ℚ) + 1 / 2) / (n : ℚ) := by
  have hn : (n : ℚ) ≠ 0 := by exact_mod_cast (by omega : n ≠ 0)
  have : ((n - 1 - s : Nat) : ℚ) = n - 1 - s := by
    rw [Nat.cast_sub (by omega), Nat.cast_sub (by omega)]
    simp
  rw [this, eq_sub_iff_add_eq, ← add_div, div_eq_one_iff_eq hn]
  ring

theorem mirror_bound {n s : Nat} (hs : s + 1 < n) :
    (((n - 2 - s : Nat) : ℚ) + 1) / (n : ℚ) = 1 - ((s : ℚ) + 1) / (n : ℚ) := by
  have hn : (n : ℚ) ≠ 0 := by exact_mod_cast (by omega : n ≠ 0)
  have : ((n - 2 - s : Nat) : ℚ) = n - 2 - s := by
    rw [Nat.cast_sub (by omega), Nat.cast_sub (by omega)]
    simp
  rw [this, eq_sub_iff_add_eq, ← add_div, div_eq_one_iff_eq hn]
  ring

/-- **C120** A table that is made from an odd quantile function is symmetric: level `s` from below is minus level
`s` from above; with an odd number of levels (every number of bits gives one) the middle level is exactly zero;
and the negative of a value that is not on a boundary between two cells gets the mirrored symbol, so that it is
decoded as the negative. -/
theorem quantiser_symmetric (q : Nat) (hq : 3 ≤ q) (F : ℚ → Fl) (G : ℚ → ℚ) (hG : QuantileOn q F G)
    (ho : OddOn q G) (e0 d0 : Nat → Fl) :
    ∃ e, construct q F e0 d0 = some e ∧
      (∀ s, s < q - 1 → ∃ y, e.decode s = some (.fin y) ∧ e.decode (q - 2 - s) = some (.fin (-y))) ∧
      (q % 2 = 0 → e.decode (q / 2 - 1) = some (.fin 0)) ∧
      (∀ x, |x| ≤ fltMax → (∀ t, t < q - 2 → e.rightBoundary t ≠ .fin x) →
        ∃ s y, s < q - 1 ∧ e.encode (.fin x) = some s ∧ e.encode (.fin (-x)) = some (q - 2 - s) ∧
          e.decode s = some (.fin y) ∧ e.decode (q - 2 - s) = some (.fin (-y))) := by
  obtain ⟨e, b, l, h1, h2, h3, h4, h5, h6, h7⟩ := construct_well_formed_on q hq F G hG e0 d0
  have en : e.n = q - 1 := by unfold Encoder.quantCount at h2; omega
  have dec : ∀ s, s < q - 1 → e.decode s = some (.fin (l s)) := fun s hs => by
    rw [Encoder.decode, if_pos (by rw [h4.cap]; omega), h4.eq s (by omega)]
  have ml : ∀ s, s < q - 1 → l (q - 2 - s) = -l s := fun s hs => by
    have e1 : q - 2 - s = q - 1 - 1 - s := by omega
    rw [h5 s hs, h5 (q - 2 - s) (by omega), e1, mirror_level hs]
    refine ho _ (onGrid_level hs) ?_
    rw [← mirror_level hs]
    exact onGrid_level (by omega)
  have mb : ∀ s, s + 1 < q - 1 → b (q - 3 - s) = -b s := fun s hs => by
    have e1 : q - 3 - s = q - 1 - 2 - s := by omega
    rw [h6 s (by omega), h6 (q - 3 - s) (by omega), e1, mirror_bound hs]
    refine ho _ (onGrid_bound hs) ?_
    rw [← mirror_bound hs]
    exact onGrid_bound (by omega)
  have pair : ∀ s, s < q - 1 → ∃ y, e.decode s = some (.fin y) ∧ e.decode (q - 2 - s) = some (.fin (-y)) :=
    fun s hs => ⟨l s, dec s hs, by rw [dec _ (by omega), ml s hs]⟩
  refine ⟨e, h1, pair, fun h => ?_, fun x hx hb => ?_⟩
  · have := ml (q / 2 - 1) (by omega)
    rw [show q - 2 - (q / 2 - 1) = q / 2 - 1 by omega] at this
    rw [dec _ (by omega), show l (q / 2 - 1) = 0 by linarith]
  · rw [abs_le] at hx
    obtain ⟨s, r, c1, c2, -⟩ := encode_finite h3 hx.2
    obtain ⟨g1, g2, g3⟩ := (encode_iff_cell h3 hx.2 s).mp c1
    have hs : s < q - 1 := by omega
    obtain ⟨y, y1, y2⟩ := pair s hs
    refine ⟨s, y, hs, c1, ?_, y1, y2⟩
    rw [encode_iff_cell h3 (by linarith : -x ≤ fltMax)]
    refine ⟨by omega, fun h0 => ?_, ?_⟩
    · have hne : x ≠ b s := fun hx => hb s (by omega) (by
        rw [Encoder.rightBoundary, if_pos (by omega), h3.eq s g1, hx])
      have := mb s (by omega)
      rw [show q - 2 - s - 1 = q - 3 - s by omega, this]
      have := lt_of_le_of_ne g3 hne
      linarith
    · by_cases h0 : s = 0
      · subst h0
        have : b (q - 2 - 0) = fltMax := by rw [← h3.last, en]; congr 1
        rw [this]
        linarith
      · have := mb (s - 1) (by omega)
        rw [show q - 3 - (s - 1) = q - 2 - s by omega] at this
        rw [this]
        linarith [g2 (by omega)]

/-- On a boundary the symmetry fails: the comment of `RightBoundary` (stochasticencoder.h:125-130) calls it the
smallest value that is not quantised to the symbol any more, but it still is. -/
theorem boundary_included {e : Encoder} {b : Nat → ℚ} (h : Boundaries e b) (s : Nat) (hs : s + 1 < e.n)
    (hlt : 0 < s → b (s - 1) < b s) : ∃ x, e.rightBoundary s = .fin x ∧ e.encode (.fin x) = some s := by
  refine ⟨b s, by rw [Encoder.rightBoundary, if_pos (by omega), h.eq s (by omega)], ?_⟩
  rw [encode_iff_cell h]
  · exact ⟨by omega, hlt, le_refl _⟩
  · rw [← h.last]
    exact h.asc s (e.n - 1) (by omega) (by omega)

/-- The uniform quantiser is an instance. -/
theorem uniform_odd (q : Nat) (sd : ℚ) : OddOn q (fun c => sd * (-1 + 2 * c)) := fun c _ _ => by ring

/-- **C120** for the table of the uniform distribution, with exact fractions. -/
theorem uniform_symmetric (q : Nat) (hq : 3 ≤ q) {sd : ℚ} (h0 : 0 < sd) (h1 : sd ≤ fltMax) (e0 d0 : Nat → Fl) :
    ∃ e, construct q (uniformF sd) e0 d0 = some e ∧
      (∀ s, s < q - 1 → ∃ y, e.decode s = some (.fin y) ∧ e.decode (q - 2 - s) = some (.fin (-y))) ∧
      (q % 2 = 0 → e.decode (q / 2 - 1) = some (.fin 0)) ∧
      (∀ x, |x| ≤ fltMax → (∀ t, t < q - 2 → e.rightBoundary t ≠ .fin x) →
        ∃ s y, s < q - 1 ∧ e.encode (.fin x) = some s ∧ e.encode (.fin (-x)) = some (q - 2 - s) ∧
          e.decode s = some (.fin y) ∧ e.decode (q - 2 - s) = some (.fin (-y))) :=
  quantiser_symmetric q hq _ _ ((uniform_quantile h0 h1).on q) (uniform_odd q sd) e0 d0

example : QuantileOn 16 (uniformF 3) (fun c => 3 * (-1 + 2 * c)) ∧ OddOn 16 (fun c => 3 * (-1 + 2 * c)) :=
  ⟨(uniform_quantile (by norm_num) (by norm_num [fltMax])).on 16, uniform_odd 16 3⟩

example : ∃ e, construct 4 (uniformF 3) (fun _ => .nan) (fun _ => .nan) = some e ∧ e.encode (.fin (3 / 2)) = some 2 ∧
    e.encode (.fin (-(3 / 2))) = some 0 ∧ e.rightBoundary 1 = .fin 1 ∧ e.encode (.fin 1) = some 1 ∧
    e.encode (.fin (-1)) = some 0 := by
  refine ⟨_, rfl, ?_⟩
  decide +kernel

end Dysco.Stochastic
