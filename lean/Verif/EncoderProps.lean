import Verif.StochasticProps

/-!
# C06, C07: the claims for the encoders that the constructors build
-/

namespace Dysco.Stochastic

/-- **C06** for a constructed encoder: the symbol of a finite value is the cell between the quantiles
`s / (q - 1)` and `(s + 1) / (q - 1)` that contains it; the outermost cells are open. -/
theorem constructed_cell (q : Nat) (hq : 3 ≤ q) (F : ℚ → Fl) (G : ℚ → ℚ) (hG : Quantile F G)
    (e0 d0 : Nat → Fl) :
    ∃ e, construct q F e0 d0 = some e ∧ ∀ x, x ≤ fltMax →
      ∃ s, s < q - 1 ∧ e.encode (.fin x) = some s ∧ (0 < s → G (s / ((q - 1 : Nat) : ℚ)) < x) ∧
        (s < q - 2 → x ≤ G ((s + 1) / ((q - 1 : Nat) : ℚ))) := by
  obtain ⟨e, b, l, h1, h2, h3, _, _, h6, _⟩ := construct_well_formed q hq F G hG e0 d0
  refine ⟨e, h1, fun x hx => ?_⟩
  have hn : e.n = q - 1 := by rw [Encoder.quantCount] at h2; omega
  obtain ⟨s, _, k1, k2, _⟩ := encode_finite h3 hx
  obtain ⟨c1, c2, c3⟩ := (encode_iff_cell h3 hx s).mp k1
  refine ⟨s, by omega, k1, fun h0 => ?_, fun hs => ?_⟩
  · have := c2 h0
    rw [h6 (s - 1) (by omega), Nat.cast_sub (by omega)] at this
    simpa using this
  · rw [← h6 s hs]
    exact c3

/-- **C07** for a constructed encoder: with and without dithering, a non-finite value gets the reserved
symbol, which decodes to NaN, and a finite value another symbol, which decodes to a finite number. -/
theorem constructed_nonfinite (q : Nat) (hq : 3 ≤ q) (F : ℚ → Fl) (G : ℚ → ℚ) (hG : Quantile F G)
    (e0 d0 : Nat → Fl) :
    ∃ e, construct q F e0 d0 = some e ∧ ∀ (R : ℚ → Fl) (d : Nat),
      (∀ v : Fl, v.isFinite = false → e.encode v = some (q - 1) ∧ e.encodeDither R v d = some (q - 1)) ∧
      e.decode (q - 1) = some .nan ∧
      ∀ x, x ≤ fltMax →
        (∃ s y, e.encode (.fin x) = some s ∧ s < q - 1 ∧ e.decode s = some (.fin y)) ∧
        ∃ s y, e.encodeDither R (.fin x) d = some s ∧ s < q - 1 ∧ e.decode s = some (.fin y) := by
  obtain ⟨e, b, l, h1, h2, h3, h4, _⟩ := construct_well_formed q hq F G hG e0 d0
  refine ⟨e, h1, fun R d => ⟨fun v hv => ?_, ?_, fun x hx => ?_⟩⟩
  · have := nonfinite_reserved h4 R v (fun q hq => by rw [hq] at hv; simp [Fl.isFinite] at hv) d
    rw [h2] at this
    exact ⟨this.1, this.2.1⟩
  · have := (nonfinite_reserved h4 R .nan (fun q hq => by simp at hq) d).2.2
    rw [h2] at this
    exact this
  · have := finite_not_reserved h3 h4 R hx d
    rw [h2] at this
    exact this

/-- The hypotheses are met by the uniform distribution with 4 bits. -/
example : ∃ e, construct 16 (uniformF 1) (fun _ => .nan) (fun _ => .nan) = some e ∧ e.decode 15 = some .nan := by
  obtain ⟨e, h1, h2⟩ := constructed_nonfinite 16 (by norm_num) _ _
    (uniform_quantile (sd := 1) (by norm_num) (by norm_num [fltMax])) (fun _ => .nan) (fun _ => .nan)
  exact ⟨e, h1, (h2 Fl.r32 0).2.1⟩

end Dysco.Stochastic
