import Verif.AFRange

/-!
# C83: the error bound of antenna-frequency normalisation for data of moderate range

`af_error_float` (C80) has conditions on the normalised block and on the channel factors before the fit. For
moderate data (`Moderate`, C82) these follow.
-/

namespace Dysco.AF
open TimeBlock Stochastic

variable {nR nPol nCh nAnt : Nat} {A : Nat → Nat × Nat} {D : Nat → Nat → Cx} {data : Block Cx}

/-- The stored factor is zero or NaN. -/
def Unusable (x : Fl) : Prop := x = .fin 0 ∨ x = .nan

theorem Unusable.div {x : Fl} (h : Unusable x) {q : ℚ} (hq : 0 < q) : Unusable (Fl.cast Fl.r32 (Fl.div Fl.r64 x (.fin q))) := by
  rcases h with rfl | rfl
  · left
    simp only [Fl.div, hq.ne', if_false, zero_div, Fl.r64_zero]
    simp only [Fl.cast, Fl.r32_zero]
  · right
    rfl

/-- The fit does not repair an unusable factor of a channel. -/
theorem unusable_kept {len i : Nat} (hi : i < nPol * nCh) (hb : nPol * nCh + nAnt * nPol ≤ len) :
    Kept Fl.r32 Fl.r64 nPol nCh nAnt (fun st => (∃ D', Holds nR (nPol * nCh) A D' st.1) ∧ st.2.len = len ∧ Unusable (st.2.get i)) where
  channel := by
    rintro ⟨data, metaB⟩ j q st' ⟨⟨D', h1⟩, h2, h3⟩ hj hq e
    simp only at h1 h2 h3
    obtain ⟨D2, data', e', k1, _⟩ := changeChannel_spec (RF := Fl.r32) (RD := Fl.r64) h1 metaB hj (by omega) (.fin q)
    rw [e'] at e
    obtain rfl := Option.some.inj e
    refine ⟨⟨D2, k1⟩, h2, ?_⟩
    simp only
    split
    · rename_i hij
      rw [← hij]
      exact h3.div hq
    · exact h3
  antenna := by
    rintro ⟨data, metaB⟩ a p q st' ⟨⟨D', h1⟩, h2, h3⟩ ha hp hq e
    simp only at h1 h2 h3
    obtain ⟨D2, data', e', k1, _⟩ := changeAntenna_spec (RF := Fl.r32) (RD := Fl.r64) h1 metaB ha hp (by omega) (.fin q)
    rw [e'] at e
    obtain rfl := Option.some.inj e
    refine ⟨⟨D2, k1⟩, h2, ?_⟩
    simp only
    rw [if_neg (by omega)]
    exact h3

theorem repr32_pow {k : ℤ} (hk : -149 ≤ k) : Fl.Repr Fl.binary32 ((2 : ℚ) ^ k) :=
  ⟨1, k, hk, by norm_num [Fl.binary32], by norm_num⟩

/-- The channel factors of moderate data: normal floats, zero, or NaN. -/
theorem channel_factors {sq : Fl → Fl} (hsq : SqrtMono sq) (hA : AntennasBelow nR nAnt A) (hR : 0 < nR)
    (hrows : nR ≤ 2 ^ 24) (h : Holds nR (nPol * nCh) A D data) (hM : Moderate nR (nPol * nCh) A D) (metaB : Buf Fl)
    (hb : nPol * nCh + nAnt * nPol ≤ metaB.len) {st : Block Cx × Buf Fl}
    (hst : normalize Fl.r32 Fl.r64 sq nPol nCh nAnt (data, metaB) = some st) {i : Nat} (hi : i < nPol * nCh) :
    Unusable (st.2.get i) ∨ Normal (st.2.get i) := by
  obtain ⟨meas, e1, l1, hmeas⟩ := channelMeas_spec (RD := Fl.r64) h
  obtain ⟨D1, data1, meta1, e2, h1, h2, h3, h4, h5⟩ := normalizeChannels_spec (RF := Fl.r32)
    (RD := Fl.r64) (sq := sq) h meas l1 metaB (by omega)
  have key : Unusable (meta1.get i) ∨ Normal (meta1.get i) := by
    rw [h4 i hR hi, hmeas i hi]
    obtain ⟨s, hs, hc⟩ := channel_measured (l := -40) (h := 40) (by norm_num) (by norm_num) (by norm_num)
      (v := fun r => D r i) hrows (by
        rintro r hr ⟨x, y, e⟩ a ha
        obtain ⟨g1, g2⟩ := (hM r i hr hi).1 x y e
        rw [e] at ha
        rcases ha with ha | ha
        · obtain rfl : x = a := by simpa using ha
          exact g1
        · obtain rfl : y = a := by simpa using ha
          exact g2)
    rcases hs.rms hsq (by norm_num) (by norm_num) (by norm_num) (le_trans hc hrows) with ⟨_, e⟩ | ⟨_, y, e, y0, y1, y2, _⟩
    · left; right
      rw [e]; rfl
    · rw [e]
      rcases y1 with rfl | y1
      · left; left
        simp only [Fl.cast, Fl.r32_zero]
      · right
        have r1 : (2 : ℚ) ^ (-126 : ℤ) ≤ Fl.rnd Fl.binary32 y := by
          have := Fl.rnd_mono (f := Fl.binary32) (by decide) (le_trans (zle (by norm_num) : (2 : ℚ) ^ (-126 : ℤ) ≤ 2 ^ (-40 - 13 : ℤ)) y1)
          rwa [Fl.rnd_of_repr (by decide) (repr32_pow (by norm_num))] at this
        have r2 : Fl.rnd Fl.binary32 y ≤ 2 ^ (40 : ℤ) := by
          have := Fl.rnd_mono (f := Fl.binary32) (by decide) y2
          rwa [Fl.rnd_of_repr (by decide) (repr32_pow (by norm_num))] at this
        refine ⟨_, Fl.r32_fin ?_, r1⟩
        rw [abs_of_pos (lt_of_lt_of_le (Fl.zp_pos _) r1)]
        exact lt_of_le_of_lt r2 (zpow_lt_zpow_right₀ (by norm_num) (by norm_num))
  obtain ⟨st', e3, _, _, k6⟩ := forRange_inv nPol
    (fun p st => AF.normalizeAntennas Fl.r32 Fl.r64 sq nPol nCh nAnt p st) (data1, meta1)
    (fun _ st => (∃ D2 : Nat → Nat → Cx, Holds nR (nPol * nCh) A D2 st.1) ∧ st.2.len = metaB.len ∧ st.2.get i = meta1.get i)
    ⟨⟨D1, h1⟩, h3, rfl⟩ (by
      rintro p ⟨data2, meta2⟩ hp ⟨⟨D2, k1⟩, k2, k6⟩
      simp only at k1 k2 k6
      obtain ⟨ant, ea, la⟩ := antennaRms_some (RD := Fl.r64) (sq := sq) k1 hA hp
      obtain ⟨D3, data3, meta3, e3, g1, _, _, g4, _, g6⟩ := normalizeAntennas_spec
        (RF := Fl.r32) k1 hA hp la ea meta2 (by omega)
      refine ⟨(data3, meta3), e3, ⟨D3, g1⟩, by simp only; omega, ?_⟩
      simp only
      rw [g6 i (fun a _ => by omega), k6])
  unfold AF.normalize at hst
  rw [e1, Option.bind_some, e2, Option.bind_some] at hst
  rw [show st = st' by rw [e3] at hst; exact (Option.some.inj hst).symm, k6]
  exact key

/-- **C83**: the error bound for moderate data. `N` is the number of iterations that the fit needs. -/
theorem af_error_moderate {sq : Fl → Fl} (hsq : SqrtMono sq) {e : Encoder} {b l : Nat → ℚ} {L : ℚ} (hT : Table e b l L)
    (hLr : Fl.Repr Fl.binary32 L) (hlo : -(5 / 4 * L) ≤ l 0) (dithered : Bool) (dith : Nat → Nat) {δ : ℚ}
    (hacc : Accurate (encFn Fl.r32 e dithered) e.decode L δ) (hc0 : 0 < nCh) (hR : 0 < nR)
    (h : Holds nR (nPol * nCh) A D data) (hF : FloatBlock nR (nPol * nCh) D)
    (hA : AntennasBelow nR nAnt A) (hn : nAnt ≤ 2 ^ 14) (hrows : nR ≤ 2 ^ 24) (hsize : nR * nCh ≤ 2 ^ 24)
    (hM : Moderate nR (nPol * nCh) A D) (metaB : Buf Fl) (hb : nPol * nCh + nAnt * nPol ≤ metaB.len)
    (sym : Buf Nat) (hs : nR * (nPol * nCh) * 2 ≤ sym.len) :
    ∃ (N : Nat) (metaB' : Buf Fl) (sym' : Buf Nat),
      (∀ fuel, N ≤ fuel → encode Fl.r32 Fl.r64 sq (encFn Fl.r32 e dithered) e.maxQuantity nPol nCh nAnt
        dith fuel data metaB sym = some (some (metaB', sym'))) ∧
      (∀ fuel out, encode Fl.r32 Fl.r64 sq (encFn Fl.r32 e dithered) e.maxQuantity nPol nCh nAnt
        dith fuel data metaB sym = some (some out) → N ≤ fuel) ∧
      ∀ (dest : Block Cx) (r : Nat), r < nR → r < dest.len →
        ∃ dest', decode Fl.r32 Fl.r64 e.decode nPol nCh nAnt metaB' dest sym' r (A r).1 (A r).2 =
            some dest' ∧
          ((dest'.get r).antenna1, (dest'.get r).antenna2) = A r ∧
          (∀ j, j ≠ r → dest'.get j = dest.get j) ∧
          (N ≤ 2000000 → Cross A r → ∀ c p m g g1 g2, c < nCh → p < nPol →
            Counted (D r (c * nPol + p)) m →
            metaB'.get (c * nPol + p) = .fin g → (2 : ℚ) ^ (-126 : ℤ) ≤ g →
            metaB'.get (nPol * nCh + (nAnt * p + (A r).1)) = .fin g1 → (2 : ℚ) ^ (-126 : ℤ) ≤ g1 →
            metaB'.get (nPol * nCh + (nAnt * p + (A r).2)) = .fin g2 → (2 : ℚ) ^ (-126 : ℤ) ≤ g2 →
            L * (g * (g1 * g2)) ≤ 2 ^ (127 : ℤ) →
            ∀ a, ((D r (c * nPol + p)).re = .fin a →
                ∃ y, ((dest'.get r).vis.get (c * nPol + p)).re = .fin y ∧
                  |y - a| ≤ afBound δ (g * (g1 * g2)) a N) ∧
              ((D r (c * nPol + p)).im = .fin a →
                ∃ y, ((dest'.get r).vis.get (c * nPol + p)).im = .fin y ∧
                  |y - a| ≤ afBound δ (g * (g1 * g2)) a N)) := by
  have hL2 : L < 2 ^ (128 : ℤ) := lt_of_le_of_lt hT.le (by norm_num [fltMax])
  obtain ⟨st0, e0, l0, D0, k0, hrange⟩ := normalize_range hsq hA hR hn hrows hsize h hM metaB hb
  obtain ⟨N, metaB', sym', f1, f2, f3⟩ := af_error_float hT hLr hlo dithered dith hacc hc0 hR h hF hA metaB hb sym hs e0
    (by
      intro r i v m hr hi hcr hv hm
      rw [rdVis_holds k0 hr hi] at hv
      obtain rfl := Option.some.inj hv
      exact hrange r i m hr hi hcr hm)
  refine ⟨N, metaB', sym', f1, f2, ?_⟩
  intro dest r hr hd
  obtain ⟨dest', d1, d2, d3, d4⟩ := f3 dest r hr hd
  refine ⟨dest', d1, d2, d3, ?_⟩
  intro hN hcr c p m g g1 g2 hc hp hm eg lg
  have hi := chan_lt (nPol := nPol) hc hp
  rcases channel_factors hsq hA hR hrows h hM metaB hb e0 hi with hu | ⟨g0, e0', l0'⟩
  · exfalso
    obtain ⟨N1, _, st', ef, _, _, ⟨_, _, hu'⟩, _⟩ := fitToMaximum_spec (RF := Fl.r32)
      (inRange_r64 (Fl.repr32_ge hLr hT.pos) hL2) hA hc0
      (unusable_kept (nR := nR) (A := A) (nAnt := nAnt) hi hb) k0 st0.2 (by omega)
      (fun r i hr hi hcr m hm => hrange r i m hr hi hcr hm) ⟨⟨D0, k0⟩, l0, hu⟩
    have h1 := f1 (max N N1) (le_max_left _ _)
    unfold encode at h1
    rw [e0, Option.bind_some, hT.maxQuantity, ef _ (le_max_right _ _), Option.bind_some] at h1
    simp only at h1
    have h2 : metaB' = st'.2 := by
      rw [Option.map_eq_some_iff] at h1
      obtain ⟨_, _, h1⟩ := h1
      simp only [Option.some.injEq, Prod.mk.injEq] at h1
      exact h1.1.symm
    rw [← h2, eg] at hu'
    rcases hu' with hu' | hu'
    · rw [Fl.fin.inj hu'] at lg
      exact absurd lg (not_le.mpr (Fl.zp_pos _))
    · simp at hu'
  · exact d4 hN hcr c p m g0 g g1 g2 hc hp hm e0' l0' eg lg

/-- The factors stored for a moderate block, with largest level 1, after one iteration. -/
def moderateFactors : Option (Option (Buf Fl × Buf Nat)) :=
  encode Fl.r32 Fl.r64 coarseSqrt (fun _ _ => some 0) (.fin 1) 1 2 2 (fun _ => 0) 1
    ⟨2, fun r => ⟨0, 1, ⟨2, moderateVis r⟩⟩⟩ ⟨4, fun _ => .nan⟩ ⟨8, fun _ => 0⟩

/-- The conditions of `af_error_moderate` on the stored factors can be met: all are normal and below 16. -/
example : (match moderateFactors with
    | some (some (m, _)) => (List.range 4).all fun i => isNormal (m.get i) && Fl.lt (m.get i) (.fin 16)
    | _ => false) = true := by decide +kernel

end Dysco.AF
