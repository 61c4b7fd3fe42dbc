import Verif.Order
import Verif.PowerRF
import Verif.RFFloat

/-!
# C136 for row-frequency normalisation

The real and imaginary part of a sample are scaled by the same factors, so they come back in the same order if they get the same
dither value; and if zero is a level, a component does not change its sign unless it underflows. Samples of different channels
can come back in the other order.
-/

namespace Dysco.Fl

/-- Not a negative number: NaN, plus infinity, or a number from zero. Not in the code. -/
def NonNeg (v : Fl) : Prop := v = .nan ∨ v = .inf false ∨ ∃ q, 0 ≤ q ∧ v = .fin q

theorem nonNeg_round {f : Fmt} (hp : 1 ≤ f.p) {q : ℚ} (hq : 0 ≤ q) (h0 : round f 0 = .fin 0) : NonNeg (round f q) := by
  have h := le_round hp hq
  rw [h0] at h
  cases hr : round f q with
  | fin x => exact Or.inr (Or.inr ⟨x, by simpa [hr, le] using h, rfl⟩)
  | inf n =>
    rw [hr] at h
    refine Or.inr (Or.inl ?_)
    simpa [le] using h
  | nan => exact Or.inl rfl

theorem nonNeg_r64 {q : ℚ} (hq : 0 ≤ q) : NonNeg (r64 q) := nonNeg_round (by decide) hq r64_zero

theorem nonNeg_cast {v : Fl} (h : NonNeg v) : NonNeg (cast r32 v) := by
  rcases h with rfl | rfl | ⟨q, hq, rfl⟩
  · exact Or.inl rfl
  · exact Or.inr (Or.inl rfl)
  · exact nonNeg_round (f := binary32) (by decide) hq r32_zero

theorem nonNeg_mul {v w : Fl} (h : NonNeg v) (h' : NonNeg w) : NonNeg (mul r64 v w) := by
  rcases h with rfl | h
  · exact Or.inl (by simp [mul])
  rcases h' with rfl | h'
  · exact Or.inl (by rcases h with rfl | ⟨q, -, rfl⟩ <;> simp [mul])
  rcases h with rfl | ⟨q, hq, rfl⟩ <;> rcases h' with rfl | ⟨q', hq', rfl⟩
  · exact Or.inr (Or.inl (by simp [mul]))
  · simp only [mul]
    split
    · exact Or.inl rfl
    · exact Or.inr (Or.inl (by simp [not_lt.2 hq']))
  · simp only [mul]
    split
    · exact Or.inl rfl
    · exact Or.inr (Or.inl (by simp [not_lt.2 hq]))
  · exact nonNeg_r64 (mul_nonneg hq hq')

/-- A number times something that is not negative is read as a number. -/
theorem nonNeg_read {c y : ℚ} {g : Fl} (hg : NonNeg g) (h : cast r32 (mul r64 (.fin c) g) = .fin y) :
    ∃ f, 0 ≤ f ∧ g = .fin f := by
  rcases hg with rfl | rfl | ⟨q, hq, rfl⟩
  · simp [mul, cast] at h
  · simp only [mul] at h
    split at h <;> simp [cast] at h
  · exact ⟨q, hq, rfl⟩

end Dysco.Fl

namespace Dysco.Layout
open BytePacker TimeBlock Stochastic

variable {nR nPol nCh nAnt bits : Nat} {A : Nat → Nat × Nat} {D : Nat → Nat → Cx} {data : Block Cx}

/-- One component of a sample that is written with row-frequency normalisation and read back. -/
theorem rf_part (sq : Fl → Fl) {e : Encoder} {b l : Nat → ℚ} {L : ℚ} (hT : Table e b l L)
    (hl : ∀ i, i < e.n → Fl.Repr Fl.binary32 (l i) ∧ |l i| < 2 ^ (128 : ℤ))
    (hb : Supported bits) (hq : e.quantCount = 2 ^ bits) (hR : 0 < nR)
    (h : Holds nR (nPol * nCh) A D data) (hF : ∀ r i, r < nR → i < nPol * nCh → FloatVis (D r i))
    (dith : Nat → Nat) (fuel : Nat) {packed : Mem 8} {unpacked out : Buf Nat}
    (hp : packed.len = blockSize (nPol * (nCh + nR)) (symbolCount nR nPol nCh) bits)
    (hu : unpacked.len = symbolCount nR nPol nCh) (ho : out.len = symbolCount nR nPol nCh)
    (dflt : DataRow Cx) (rows : Block Cx) :
    ∃ d x, writeBlock (encData .rf sq e nPol nCh nAnt dith fuel data) bits (nPol * (nCh + nR)) (symbolCount nR nPol nCh)
        packed unpacked = .ok d ∧
      readBlock (decData .rf e nPol nCh nAnt A) bits (nPol * (nCh + nR)) (symbolCount nR nPol nCh) nR dflt d out rows = .ok x ∧
      ∀ r i, r < nR → i < nPol * nCh → ∃ (F G : ℚ) (g : Fl), 0 < F ∧ 1 / 2 ≤ G ∧ Fl.NonNeg g ∧
        (∀ M, RF.RowPolMax nPol nCh D r (i % nPol) M → 0 < M → L / M ≤ 2 * F) ∧
        ∀ k, k < 2 → ∀ y, ((x.get r).vis.get i).part k = .fin y →
          ∃ v s, Fl.cast Fl.r32 (Fl.mul Fl.r64 (Fl.mul Fl.r64 ((D r i).part k) (.fin F)) (.fin G)) = .fin v ∧
            e.encodeDither Fl.r32 (.fin v) (dith ((r * (nPol * nCh) + i) * 2 + k)) = some s ∧ s < e.n ∧
            Fl.cast Fl.r32 (Fl.mul Fl.r64 (.fin (l s)) g) = .fin y := by
  have hn : e.n - 1 < e.n := by have := hT.levels.two; omega
  have hLr : Fl.Repr Fl.binary32 L := by rw [← hT.top]; exact (hl _ hn).1
  have hL2 : L < 2 ^ (128 : ℤ) := by rw [← hT.top]; exact lt_of_le_of_lt (le_abs_self _) (hl _ hn).2
  obtain ⟨d, x, s, e1, e2, e3, e4, e5, e6, e7⟩ := rf_block (nAnt := nAnt) sq hT hb hq hR h dith fuel hp hu ho dflt rows
  obtain ⟨q1, q2, q3, -, q5⟩ := RF.row_stage_facts (nR := nR) (nPol := nPol) (nCh := nCh) (D := D) hT.pos hLr hL2 hF
  refine ⟨d, x, e1, e2, fun r i hr hi => ?_⟩
  have hp0 : 0 < nPol := Nat.pos_of_ne_zero (by rintro rfl; simp at hi)
  obtain ⟨M, hM, f1, hMr, hM2⟩ := q1 r i hr hi
  obtain ⟨F, hF0, hFe, hFb⟩ : ∃ F, 0 < F ∧ Row.rowFactor Fl.r64 (.fin L) (.fin M) = .fin F ∧
      (0 < M → L / M ≤ 2 * F) := by
    rcases hM.1.eq_or_lt with h0 | h0
    · exact ⟨1, by norm_num, by simp [Row.rowFactor, Fl.eq, ← h0], fun h1 => absurd h1 (by rw [← h0]; exact lt_irrefl _)⟩
    · obtain ⟨⟨P, P0, p1, -, p3⟩, -⟩ := r64_ratio (j := 0) hLr hT.pos hL2 (by simpa using hLr) (by simpa using hL2) hMr h0 hM2
      refine ⟨P, P0, by rw [rowFactor_pos h0.ne', p1], fun _ => ?_⟩
      have h53 : (2 : ℚ) ^ (-53 : ℤ) ≤ 1 / 2 := by norm_num
      have h4 := mul_le_mul_of_nonneg_left h53 (div_pos hT.pos h0).le
      have h5 := (abs_le.1 p3).1
      generalize L / M * 2 ^ (-53 : ℤ) = u at h4 h5
      linarith
  -- the largest value of the channel after the row stage is about the largest level or less
  obtain ⟨C, c1, c2, c3, c4⟩ := q5 i hi
  have hC : C ≤ 2 * L := by
    rcases c2.2.2 with h0 | ⟨r', hr', hc⟩
    · rw [h0]
      linarith [hT.pos]
    · obtain ⟨M', hM', f1', -, -⟩ := q1 r' i hr' hi
      obtain ⟨m, hm⟩ := q3 r' i C hr' hi hc
      have hmM := hM'.le hi hm
      have part : ∀ P, ((RF.rowed Fl.r64 (.fin L) nPol nCh D r' i).re = .fin P ∨
          (RF.rowed Fl.r64 (.fin L) nPol nCh D r' i).im = .fin P) → |P| ≤ 2 * L := by
        intro P hP
        obtain ⟨a, ha, haP⟩ := RF.rowed_fin hP
        obtain ⟨P', g1, g2, -, -, g5⟩ := q2 r' i m a hr' hi hm ha
        rw [haP] at g1
        obtain rfl : P = P' := Fl.fin.inj g1
        have ham : |a| ≤ M' := by
          refine le_trans ?_ hmM
          obtain ⟨a', h1, ⟨b', h2, h3⟩ | ⟨h2, h3⟩⟩ := hm
          · rw [h3]
            rcases ha with ha | ha
            · rw [h1] at ha
              rw [Fl.fin.inj ha]
              exact le_max_left _ _
            · rw [h2] at ha
              rw [Fl.fin.inj ha]
              exact le_max_right _ _
          · rw [h3]
            rcases ha with ha | ha
            · rw [h1] at ha
              rw [Fl.fin.inj ha]
            · rw [h2] at ha
              cases ha
        rcases hM'.1.eq_or_lt with h0 | h0
        · have : a = 0 := abs_eq_zero.1 (le_antisymm (by rw [h0]; exact ham) (abs_nonneg a))
          rw [g2 this, abs_zero]
          linarith [hT.pos]
        · have hX : |a| * (L / M') ≤ L := by
            rw [← mul_div_assoc, div_le_iff₀ h0, mul_comm L]
            exact mul_le_mul_of_nonneg_right ham hT.pos.le
          have h5 := g5 M' hM' h0
          have h6 : |P| - |a * (L / M')| ≤ |P - a * (L / M')| := abs_sub_abs_le_abs_sub _ _
          rw [abs_mul, abs_of_pos (div_pos hT.pos h0)] at h6
          have h7 : 0 ≤ |a| * (L / M') := mul_nonneg (abs_nonneg a) (div_pos hT.pos h0).le
          generalize |a| * (L / M') = X at *
          linarith
      obtain ⟨a, h1, ⟨b', h2, h3⟩ | ⟨h2, h3⟩⟩ := hc
      · rw [h3]
        exact max_le (part a (Or.inl h1)) (part b' (Or.inr h2))
      · rw [h3]
        exact part a (Or.inl h1)
  obtain ⟨G, hG, hGe⟩ : ∃ G : ℚ, 1 / 2 ≤ G ∧ RF.chF Fl.r64 (.fin L) nR nPol nCh D i = .fin G := by
    unfold RF.chF
    rw [c1]
    rcases c2.1.eq_or_lt with h0 | h0
    · exact ⟨1, by norm_num, by simp [RF.chanFactor, Fl.eq, ← h0]⟩
    · have hfac : RF.chanFactor Fl.r64 (.fin L) (.fin C) = Fl.r64 (L / C) := by
        simp [RF.chanFactor, Fl.eq, Fl.div, hT.pos.ne', h0.ne']
      rw [hfac]
      have hCge : (2 : ℚ) ^ (-427 : ℤ) ≤ C := by
        rcases c3 with h | h
        · exact absurd h h0.ne'
        · exact h
      have hhi : L / C ≤ 2 ^ (555 : ℤ) := by
        rw [div_le_iff₀ h0]
        refine le_trans hL2.le (le_trans ?_ (mul_le_mul_of_nonneg_left hCge (Fl.zp_pos _).le))
        rw [← zpow_add₀ (by norm_num)]
        exact zpow_le_zpow_right₀ (by norm_num) (by norm_num)
      have hlo : (2 : ℚ) ^ (-1 : ℤ) ≤ L / C := by
        rw [le_div_iff₀ h0, zpow_neg_one]
        linarith
      have hpos : 0 < L / C := div_pos hT.pos h0
      obtain ⟨hr, -⟩ := Fl.r64_normal (x := L / C)
        (by rw [abs_of_pos hpos]; exact le_trans (zpow_le_zpow_right₀ (by norm_num) (by norm_num)) hlo)
        (by rw [abs_of_pos hpos]; exact le_trans hhi (zpow_le_zpow_right₀ (by norm_num) (by norm_num)))
      have h1 := r64_pow_le (k := -1) (by norm_num) hr (by rw [abs_of_pos hpos]; exact hlo)
      have h2 : 0 ≤ Fl.rnd Fl.binary64 (L / C) := by
        have := Fl.nonNeg_r64 hpos.le
        rw [hr] at this
        rcases this with h | h | ⟨q, hq0, h⟩
        · cases h
        · cases h
        · rw [Fl.fin.inj h]
          exact hq0
      rw [abs_of_nonneg h2, zpow_neg_one] at h1
      exact ⟨_, by linarith, hr⟩
  have hg : Fl.NonNeg (Fl.mul Fl.r64 ((metaView (nPol * (nCh + nR)) d).get i)
      ((metaView (nPol * (nCh + nR)) d).get (nPol * nCh + (r * nPol + i % nPol)))) := by
    have hG0 : G ≠ 0 := by
      rintro rfl
      norm_num at hG
    rw [e4 i hi, e5 r _ hr (Nat.mod_lt _ hp0), hGe, f1]
    refine Fl.nonNeg_mul (Fl.nonNeg_cast ?_) (Fl.nonNeg_cast ?_)
    · simp only [Fl.div, if_neg hG0]
      exact Fl.nonNeg_r64 (div_nonneg (by norm_num) (by linarith))
    · simp only [RF.rowMeta, Fl.eq, Fl.div, hT.pos.ne', decide_false, Bool.false_eq_true, if_false]
      exact Fl.nonNeg_r64 (div_nonneg hM.1 hT.pos.le)
  refine ⟨F, G, _, hF0, hG, hg, fun M' hM' h0 => ?_, fun k hk y hy => ?_⟩
  · obtain rfl := hM.unique hM'
    exact hFb h0
  have hlt : (r * (nPol * nCh) + i) * 2 + 1 < symbolCount nR nPol nCh := by
    rw [symbolCount_eq]
    have := flat_lt hr hi
    omega
  obtain ⟨c5, c6⟩ : encFn Fl.r32 e true (Fl.cast Fl.r32 (Fl.mul Fl.r64 (Fl.mul Fl.r64 ((D r i).part k) (.fin F)) (.fin G)))
        (dith ((r * (nPol * nCh) + i) * 2 + k)) = some (s ((r * (nPol * nCh) + i) * 2 + k)) ∧
      Fl.cast Fl.r32 (Fl.mul Fl.r64 (e.level (s ((r * (nPol * nCh) + i) * 2 + k)))
        (Fl.mul Fl.r64 ((metaView (nPol * (nCh + nR)) d).get i)
          ((metaView (nPol * (nCh + nR)) d).get (nPol * nCh + (r * nPol + i % nPol))))) = .fin y := by
    have h5 := e6 r i hr hi
    rw [RF.rowed, f1, hFe, hGe] at h5
    rw [e7 r i hr hi] at hy
    obtain rfl | rfl : k = 0 ∨ k = 1 := by omega
    · exact ⟨h5.1, hy⟩
    · exact ⟨h5.2, hy⟩
  have hsb := (e3 ((r * (nPol * nCh) + i) * 2 + k) (by omega)).1
  generalize s ((r * (nPol * nCh) + i) * 2 + k) = s0 at c5 c6 hsb
  have hs0 : s0 < e.n := by
    rw [← hq, Encoder.quantCount] at hsb
    by_contra hc
    obtain rfl : s0 = e.n := by omega
    rw [hT.levels.slot] at c6
    simp [Fl.mul, Fl.cast] at c6
  rw [hT.levels.eq _ hs0] at c6
  cases hv : Fl.cast Fl.r32 (Fl.mul Fl.r64 (Fl.mul Fl.r64 ((D r i).part k) (.fin F)) (.fin G)) with
  | fin v =>
    refine ⟨v, s0, rfl, ?_, hs0, c6⟩
    rw [hv] at c5
    simpa [encFn] using c5
  | inf n =>
    have := hT.nonfinite Fl.r32 true (v := .inf n) rfl _ (by rw [← hv]; exact c5)
    rw [hT.levels.eq _ hs0] at this
    cases this
  | nan =>
    have := hT.nonfinite Fl.r32 true (v := .nan) rfl _ (by rw [← hv]; exact c5)
    rw [hT.levels.eq _ hs0] at this
    cases this

/-- **C136** With row-frequency normalisation: if the real and the imaginary part of a sample get the same dither value, they
come back in the same order, as far as they are read back as numbers. If zero is a level, a component is not read back with
the other sign, unless it underflows when it is scaled. -/
theorem rf_order (sq : Fl → Fl) {e : Encoder} {b l : Nat → ℚ} {L : ℚ} (hT : Table e b l L)
    (hl : ∀ i, i < e.n → Fl.Repr Fl.binary32 (l i) ∧ |l i| < 2 ^ (128 : ℤ))
    (hb : Supported bits) (hq : e.quantCount = 2 ^ bits) (hR : 0 < nR)
    (h : Holds nR (nPol * nCh) A D data) (hF : ∀ r i, r < nR → i < nPol * nCh → FloatVis (D r i))
    (dith : Nat → Nat) (fuel : Nat) {packed : Mem 8} {unpacked out : Buf Nat}
    (hp : packed.len = blockSize (nPol * (nCh + nR)) (symbolCount nR nPol nCh) bits)
    (hu : unpacked.len = symbolCount nR nPol nCh) (ho : out.len = symbolCount nR nPol nCh)
    (dflt : DataRow Cx) (rows : Block Cx) :
    ∃ d x, writeBlock (encData .rf sq e nPol nCh nAnt dith fuel data) bits (nPol * (nCh + nR)) (symbolCount nR nPol nCh)
        packed unpacked = .ok d ∧
      readBlock (decData .rf e nPol nCh nAnt A) bits (nPol * (nCh + nR)) (symbolCount nR nPol nCh) nR dflt d out rows = .ok x ∧
      (∀ r i k k', r < nR → i < nPol * nCh → k < 2 → k' < 2 →
        dith ((r * (nPol * nCh) + i) * 2 + k) = dith ((r * (nPol * nCh) + i) * 2 + k') →
        ∀ a a' y y', (D r i).part k = .fin a → (D r i).part k' = .fin a' → a ≤ a' →
          ((x.get r).vis.get i).part k = .fin y → ((x.get r).vis.get i).part k' = .fin y' → y ≤ y') ∧
      -- the sign, if zero is a level
      ((∃ m, m < e.n ∧ l m = 0) → ∀ r i k, r < nR → i < nPol * nCh → k < 2 →
        ∀ M a y, RF.RowPolMax nPol nCh D r (i % nPol) M → 0 < M → (D r i).part k = .fin a →
          ((x.get r).vis.get i).part k = .fin y →
          ((2 : ℚ) ^ (-147 : ℤ) ≤ a * (L / M) → 0 ≤ y) ∧ (a * (L / M) ≤ -2 ^ (-147 : ℤ) → y ≤ 0)) := by
  obtain ⟨d, x, e1, e2, key⟩ := rf_part (nAnt := nAnt) sq hT hl hb hq hR h hF dith fuel hp hu ho dflt rows
  have up : ∀ {c c' f : ℚ}, 0 ≤ f → c ≤ c' →
      Fl.le (Fl.mul Fl.r64 (.fin c) (.fin f)) (Fl.mul Fl.r64 (.fin c') (.fin f)) = true :=
    fun hf hc => Fl.le_round (by decide) (mul_le_mul_of_nonneg_right hc hf)
  have up2 : ∀ {c c' F G : ℚ}, 0 < F → 0 < G → c ≤ c' →
      Fl.le (Fl.mul Fl.r64 (Fl.mul Fl.r64 (.fin c) (.fin F)) (.fin G))
        (Fl.mul Fl.r64 (Fl.mul Fl.r64 (.fin c') (.fin F)) (.fin G)) = true :=
    fun hF hG hc => Fl.le_mul_pos (f := Fl.binary64) (by decide) (up hF.le hc) hG
  have zero : ∀ {f : ℚ}, Fl.cast Fl.r32 (Fl.mul Fl.r64 (.fin 0) (.fin f)) = .fin 0 := by
    intro f
    simp only [Fl.mul, zero_mul, Fl.r64_zero, Fl.cast, Fl.r32_zero]
  have zero2 : ∀ {F G : ℚ}, Fl.cast Fl.r32 (Fl.mul Fl.r64 (Fl.mul Fl.r64 (.fin 0) (.fin F)) (.fin G)) = .fin 0 := by
    intro F G
    simp only [Fl.mul, zero_mul, Fl.r64_zero, Fl.cast, Fl.r32_zero]
  refine ⟨d, x, e1, e2, ?_, ?_⟩
  · intro r i k k' hr hi hk hk' hd a a' y y' ha ha' haa hy hy'
    obtain ⟨F, G, g, hF0, hG, hg, -, key⟩ := key r i hr hi
    obtain ⟨v, s, v1, v2, v3, v4⟩ := key k hk y hy
    obtain ⟨v', s', v1', v2', v3', v4'⟩ := key k' hk' y' hy'
    rw [ha] at v1
    rw [ha'] at v1'
    have hvv := fin_le_of_cast (up2 hF0 (by linarith) haa) v1 v1'
    rw [hd] at v2
    have hss := dither_monotone hT.levels (fun i hi => (hl i hi).1) hvv _ v2 v2'
    obtain ⟨f, hf0, rfl⟩ := Fl.nonNeg_read hg v4
    exact fin_le_of_cast (up hf0 (StrictlyAscending.asc hT.levels.asc s s' hss v3')) v4 v4'
  · rintro ⟨m, hm, hz⟩ r i k hr hi hk M a y hM hM0 ha hy
    obtain ⟨F, G, g, hF0, hG, hg, hFb, key⟩ := key r i hr hi
    obtain ⟨v, s, v1, v2, v3, v4⟩ := key k hk y hy
    obtain ⟨f, hf0, rfl⟩ := Fl.nonNeg_read hg v4
    have hG0 : 0 < G := by linarith
    rw [ha] at v1
    have hLM : 0 < L / M := div_pos hT.pos hM0
    have hlow := hFb M hM hM0
    have e147 : (2 : ℚ) ^ (-147 : ℤ) = 2 * 2 ^ (-148 : ℤ) := by
      rw [← zpow_one_add₀ (by norm_num)]
      norm_num
    have e148 : (2 : ℚ) ^ (-148 : ℤ) = 2 * 2 ^ (-149 : ℤ) := by
      rw [← zpow_one_add₀ (by norm_num)]
      norm_num
    have big : ∀ {c w : ℚ}, Fl.cast Fl.r32 (Fl.mul Fl.r64 (Fl.mul Fl.r64 (.fin c) (.fin F)) (.fin G)) = .fin w →
        (2 : ℚ) ^ (-148 : ℤ) ≤ |c * F| → (2 : ℚ) ^ (-149 : ℤ) ≤ |w| := by
      intro c w hw hc
      simp only [Fl.mul] at hw
      cases h64 : Fl.r64 (c * F) with
      | fin u =>
        rw [h64] at hw
        have hu' := r64_pow_le (by norm_num) h64 hc
        simp only at hw
        cases h65 : Fl.r64 (u * G) with
        | fin t =>
          rw [h65] at hw
          refine (r32_pow_le (by norm_num) hw).1 (r64_pow_le (by norm_num) h65 ?_)
          rw [abs_mul, abs_of_pos hG0]
          rw [e148] at hu'
          have h1 := mul_le_mul_of_nonneg_left hG (abs_nonneg u)
          generalize (2 : ℚ) ^ (-149 : ℤ) = z at hu' ⊢
          linarith
        | inf n => rw [h65] at hw; simp [Fl.cast] at hw
        | nan => rw [h65] at hw; simp [Fl.cast] at hw
      | inf n => rw [h64] at hw; simp [Fl.cast, hG0.ne'] at hw
      | nan => rw [h64] at hw; simp [Fl.cast] at hw
    have hsg := dither_sign hT.levels hm hz Fl.r32 _ v2
    constructor
    · intro hx
      have ha0 : 0 < a := by
        by_contra hc
        have h1 := mul_nonpos_of_nonpos_of_nonneg (not_lt.1 hc) hLM.le
        have h2 := Fl.zp_pos (-147)
        exact absurd (le_trans hx h1) (not_le.2 h2)
      have hv0 : 0 ≤ v := fin_le_of_cast (up2 hF0 hG0 ha0.le) zero2 v1
      have hb' : (2 : ℚ) ^ (-149 : ℤ) ≤ |v| := by
        refine big v1 (le_trans ?_ (le_abs_self _))
        have h1 := mul_le_mul_of_nonneg_left hlow ha0.le
        rw [e147] at hx
        generalize (2 : ℚ) ^ (-148 : ℤ) = u at hx ⊢
        linarith
      rw [abs_of_nonneg hv0] at hb'
      exact fin_le_of_cast (up hf0 (hsg.1 (lt_of_lt_of_le (Fl.zp_pos _) hb'))) zero v4
    · intro hx
      have ha0 : a < 0 := by
        by_contra hc
        have h1 := mul_nonneg (not_lt.1 hc) hLM.le
        have h2 := Fl.zp_pos (-147)
        exact absurd (le_trans h1 hx) (not_le.2 (neg_neg_of_pos h2))
      have hv0 : v ≤ 0 := fin_le_of_cast (up2 hF0 hG0 ha0.le) v1 zero2
      have hb' : (2 : ℚ) ^ (-149 : ℤ) ≤ |v| := by
        refine big v1 (le_trans ?_ (neg_le_abs _))
        have h1 := mul_le_mul_of_nonpos_left hlow ha0.le
        rw [e147] at hx
        generalize (2 : ℚ) ^ (-148 : ℤ) = u at hx ⊢
        linarith
      rw [abs_of_nonpos hv0] at hb'
      have := Fl.zp_pos (-149)
      exact fin_le_of_cast (up hf0 (hsg.2.1 (by linarith))) v4 zero

/-! ## What does not hold -/

/-- The real parts of row 0 of two rows after writing and reading them back with one polarisation, three channels and two
bits. Not in the code. -/
def firstRow3 (norm : Norm) (D : Nat → Nat → ℚ) : Option (List Fl) :=
  match writeBlock (encData norm id Row.smallTable 1 3 2 (fun _ => 0) 10
      ⟨2, fun r => ⟨0, 1, ⟨3, fun i => ⟨.fin (D r i), .fin (D r i)⟩⟩⟩⟩) 2 (dataMetaCount norm 2 1 3 2) 12
      ⟨4 * dataMetaCount norm 2 1 3 2 + 3, fun _ => 0⟩ ⟨12, fun _ => 0⟩ with
  | .ok d =>
    match readBlock (decData norm Row.smallTable 1 3 2 (fun _ => (0, 1))) 2 (dataMetaCount norm 2 1 3 2) 12 2
        ⟨0, 0, ⟨0, fun _ => ⟨.nan, .nan⟩⟩⟩ d ⟨12, fun _ => 0⟩ ⟨0, fun _ => ⟨0, 0, ⟨0, fun _ => ⟨.nan, .nan⟩⟩⟩⟩ with
    | .ok x => some [((x.get 0).vis.get 0).re, ((x.get 0).vis.get 1).re, ((x.get 0).vis.get 2).re]
    | _ => none
  | _ => none

/-- With row-frequency normalisation, samples of different channels can come back in the other order although all dither
values are the same: `1/2, 3/4, 1` next to the row `1, 1/4, 1` comes back as `1, 3/4, 1`. With row normalisation this cannot
happen. -/
theorem rf_order_channels :
    firstRow3 .rf (fun r i => if r = 0 then (if i = 0 then 1 / 2 else if i = 1 then 3 / 4 else 1) else
      if i = 1 then 1 / 4 else 1) = some [.fin 1, .fin (3 / 4), .fin 1] ∧
    firstRow3 .row (fun r i => if r = 0 then (if i = 0 then 1 / 2 else if i = 1 then 3 / 4 else 1) else
      if i = 1 then 1 / 4 else 1) = some [.fin 1, .fin 1, .fin 1] := by
  decide +kernel

/-! ## Example -/

/-- Two rows of samples `1 + 2i`, `3 + 4i`, written with equal dither values: the parts of a sample are read back in order, and
not as negative numbers. -/
example (packed : Mem 8) (hl : packed.len = 18) (dflt : DataRow Cx) (rows : Block Cx) :
    ∃ d x, writeBlock (encData .rf id Row.smallTable 1 2 2 (fun _ => 77) 5
        ⟨2, fun _ => ⟨0, 1, ⟨2, fun i => ⟨.fin ((2 * i + 1 : Nat) : ℚ), .fin ((2 * i + 2 : Nat) : ℚ)⟩⟩⟩⟩) 2 4 8 packed
        ⟨8, fun _ => 0⟩ = .ok d ∧
      readBlock (decData .rf Row.smallTable 1 2 2 fun _ => (0, 1)) 2 4 8 2 dflt d ⟨8, fun _ => 0⟩ rows = .ok x ∧
      (∀ y y', ((x.get 1).vis.get 0).re = .fin y → ((x.get 1).vis.get 0).im = .fin y' → y ≤ y') ∧
      ∀ y, ((x.get 1).vis.get 1).im = .fin y → 0 ≤ y := by
  have hf : ∀ n : Nat, n < 100 → Fl.Repr Fl.binary32 (n : ℚ) ∧ |(n : ℚ)| < 2 ^ (128 : ℤ) := by
    intro n hn
    refine ⟨Fl.repr32_nat (by omega), ?_⟩
    rw [Nat.abs_cast]
    exact lt_of_lt_of_le (b := ((100 : Nat) : ℚ)) (by exact_mod_cast hn) (by norm_num)
  obtain ⟨d, x, e1, e2, h1, h2⟩ := rf_order (nR := 2) (nPol := 1) (nCh := 2) (nAnt := 2) (bits := 2) (A := fun _ => (0, 1))
    (D := fun _ i => ⟨.fin ((2 * i + 1 : Nat) : ℚ), .fin ((2 * i + 2 : Nat) : ℚ)⟩) id Row.smallTable_ok smallTable_float
    (Or.inl rfl) rfl (by decide)
    (data := ⟨2, fun _ => ⟨0, 1, ⟨2, fun i => ⟨.fin ((2 * i + 1 : Nat) : ℚ), .fin ((2 * i + 2 : Nat) : ℚ)⟩⟩⟩⟩)
    ⟨rfl, fun _ _ => rfl, fun _ _ => rfl, fun _ _ _ _ => rfl⟩
    (fun r i _ hi a ha => by
      have hi : i < 2 := hi
      rcases ha with ha | ha
      · rw [← Fl.fin.inj ha]
        exact hf _ (by omega)
      · rw [← Fl.fin.inj ha]
        exact hf _ (by omega))
    (fun _ => 77) 5 hl (unpacked := ⟨8, fun _ => 0⟩) (out := ⟨8, fun _ => 0⟩) rfl rfl dflt rows
  refine ⟨d, x, e1, e2, fun y y' => h1 1 0 0 1 (by decide) (by decide) (by decide) (by decide) rfl 1 2 y y' ?_ ?_ (by norm_num),
    fun y hy => ?_⟩
  · simp [Cx.part]
  · simp [Cx.part]
  · obtain ⟨M, hM, -⟩ := RF.rowPolMax_exists 1 2
      (fun _ i : Nat => (⟨.fin ((2 * i + 1 : Nat) : ℚ), .fin ((2 * i + 2 : Nat) : ℚ)⟩ : Cx)) 1 (1 % 1)
    have hM4 : M = 4 := by
      refine hM.unique ⟨by norm_num, fun i m hi hm => ?_, Or.inr ⟨1, by decide, 3, by simp, Or.inl ⟨4, by simp, by norm_num⟩⟩⟩
      obtain ⟨a, k1, ⟨b, k2, k3⟩ | ⟨k2, -⟩⟩ := hm
      · rw [k3, ← Fl.fin.inj k1, ← Fl.fin.inj k2, Nat.abs_cast, Nat.abs_cast]
        exact max_le (by exact_mod_cast (by omega : 2 * (i * 1 + 1 % 1) + 1 ≤ 4)) (by
          exact_mod_cast (by omega : 2 * (i * 1 + 1 % 1) + 2 ≤ 4))
      · cases k2
    refine (h2 ⟨1, by decide, by norm_num⟩ 1 1 1 (by decide) (by decide) (by decide) M 4 y hM (by rw [hM4]; norm_num)
      (by simp [Cx.part]) hy).1 ?_
    rw [hM4]
    norm_num

end Dysco.Layout
