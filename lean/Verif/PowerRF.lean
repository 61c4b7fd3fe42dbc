import Verif.Power

/-!
# C135, row-frequency normalisation

Multiplying the values of one row and polarisation by a power of two, another power for every row and polarisation, leaves all
symbols and all channel factors as they are; the row factor of that row and polarisation is multiplied by that power.
-/

namespace Dysco

/-- The stored factor `M / L`, before and after scaling. -/
theorem factor_scaled {M L : ℚ} {j : ℤ} (hMr : Fl.Repr Fl.binary32 M) (hM0 : 0 < M) (hM2 : M < 2 ^ (128 : ℤ))
    (hMr' : Fl.Repr Fl.binary32 (M * 2 ^ j)) (hM2' : M * 2 ^ j < 2 ^ (128 : ℤ))
    (hLr : Fl.Repr Fl.binary32 L) (hL0 : 0 < L) (hL2 : L < 2 ^ (128 : ℤ))
    (b1 : (2 : ℚ) ^ (-126 : ℤ) ≤ M / L) (b2 : M / L ≤ 2 ^ (126 : ℤ)) (b1' : (2 : ℚ) ^ (-126 : ℤ) ≤ M * 2 ^ j / L)
    (b2' : M * 2 ^ j / L ≤ 2 ^ (126 : ℤ)) :
    ∃ f, Fl.cast Fl.r32 (Fl.div Fl.r64 (.fin M) (.fin L)) = .fin f ∧
      Fl.cast Fl.r32 (Fl.div Fl.r64 (.fin (M * 2 ^ j)) (.fin L)) = .fin (f * 2 ^ j) ∧
      (2 : ℚ) ^ (-126 : ℤ) ≤ f ∧ f ≤ 2 ^ (127 : ℤ) ∧ (2 : ℚ) ^ (-126 : ℤ) ≤ f * 2 ^ j ∧ f * 2 ^ j ≤ 2 ^ (127 : ℤ) := by
  have hjp := Fl.zp_pos j
  obtain ⟨⟨P, P0, p1, p2, p3⟩, -⟩ := r64_ratio hMr hM0 hM2 hMr' hM2' hLr hL0 hL2
  have ex : M * 2 ^ j / L = M / L * 2 ^ j := by rw [div_mul_eq_mul_div]
  have hx0 : 0 < M / L := div_pos hM0 hL0
  have p1' : Fl.r64 (M / L) = .fin P := by simpa only [Fl.div, if_neg hL0.ne'] using p1
  have p2' : Fl.r64 (M * 2 ^ j / L) = .fin (P * 2 ^ j) := by simpa only [Fl.div, if_neg hL0.ne'] using p2
  have c1 : (2 : ℚ) ^ (-126 : ℤ) ≤ |P| := r64_pow_le (by norm_num) p1' (by rw [abs_of_pos hx0]; exact b1)
  have c1' : (2 : ℚ) ^ (-126 : ℤ) ≤ |P * 2 ^ j| :=
    r64_pow_le (by norm_num) p2' (by rw [ex, abs_of_pos (mul_pos hx0 hjp), ← ex]; exact b1')
  have hPx : P ≤ 2 * (M / L) := by
    have h53 : (2 : ℚ) ^ (-53 : ℤ) ≤ 1 := by norm_num
    have h4 := mul_le_mul_of_nonneg_left h53 hx0.le
    have h5 := (abs_le.1 p3).2
    generalize M / L * 2 ^ (-53 : ℤ) = t at h4 h5
    linarith
  have two : ∀ {t : ℚ}, t ≤ 2 ^ (126 : ℤ) → 2 * t ≤ 2 ^ (127 : ℤ) := by
    intro t ht
    have e : (2 : ℚ) ^ (127 : ℤ) = 2 * 2 ^ (126 : ℤ) := by norm_num
    rw [e]
    exact mul_le_mul_of_nonneg_left ht (by norm_num)
  have c2 : |P| ≤ 2 ^ (127 : ℤ) := by
    rw [abs_of_pos P0]
    exact le_trans hPx (two b2)
  have c2' : |P * 2 ^ j| ≤ 2 ^ (127 : ℤ) := by
    rw [abs_of_pos (mul_pos P0 hjp)]
    refine le_trans (mul_le_mul_of_nonneg_right hPx hjp.le) ?_
    rw [mul_assoc, ← ex]
    exact two b2'
  obtain ⟨f, g1, g2⟩ := Fl.r32_mul_pow c1 c2 c1' c2'
  have lf := (r32_pow_le (by norm_num) g1).1 c1
  have uf := (r32_pow_le (by norm_num) g1).2 c2
  have lf' := (r32_pow_le (by norm_num) g2).1 c1'
  have uf' := (r32_pow_le (by norm_num) g2).2 c2'
  have hf0 : 0 ≤ f := by
    have : Fl.rnd Fl.binary32 P = f := by
      unfold Fl.r32 Fl.round at g1
      split at g1
      · simpa using g1
      · cases g1
    rw [← this]
    exact Fl.rnd_nonneg _ P0.le
  rw [abs_of_nonneg hf0] at lf uf
  rw [abs_of_nonneg (mul_nonneg hf0 hjp.le)] at lf' uf'
  exact ⟨f, by rw [p1]; exact g1, by rw [p2]; exact g2, lf, uf, lf', uf'⟩

theorem mul_neg_neg (c P : ℚ) : Fl.mul Fl.r64 (.fin (-c)) (.fin (-P)) = Fl.mul Fl.r64 (.fin c) (.fin P) := by
  simp only [Fl.mul, neg_mul_neg]

/-- What is read for a level `c`, a channel factor `g` and a row factor `f`. -/
theorem read_scaled2 {c g f y : ℚ} {j : ℤ} (hc : c = 0 ∨ (2 : ℚ) ^ (-149 : ℤ) ≤ |c|) (hc2 : |c| ≤ 2 ^ (128 : ℤ))
    (hg : g = 0 ∨ (2 : ℚ) ^ (-149 : ℤ) ≤ |g|) (hg2 : |g| ≤ 2 ^ (128 : ℤ))
    (hf : (2 : ℚ) ^ (-126 : ℤ) ≤ f) (hf2 : f ≤ 2 ^ (127 : ℤ)) (hf' : (2 : ℚ) ^ (-126 : ℤ) ≤ f * 2 ^ j)
    (hf2' : f * 2 ^ j ≤ 2 ^ (127 : ℤ))
    (h : Fl.cast Fl.r32 (Fl.mul Fl.r64 (.fin c) (Fl.mul Fl.r64 (.fin g) (.fin f))) = .fin y)
    (h1 : (2 : ℚ) ^ (-126 : ℤ) < |y|) (h2 : |y| < 2 ^ (127 : ℤ))
    (h1' : (2 : ℚ) ^ (-126 : ℤ) < |y * 2 ^ j|) (h2' : |y * 2 ^ j| < 2 ^ (127 : ℤ)) :
    Fl.cast Fl.r32 (Fl.mul Fl.r64 (.fin c) (Fl.mul Fl.r64 (.fin g) (.fin (f * 2 ^ j)))) = .fin (y * 2 ^ j) := by
  have z : ∀ {i j : ℤ}, i ≤ j → (2 : ℚ) ^ i ≤ 2 ^ j := fun h => zpow_le_zpow_right₀ (by norm_num) h
  rcases hg with rfl | hg
  · exfalso
    simp only [Fl.mul, zero_mul, mul_zero, Fl.r64_zero, Fl.cast, Fl.r32_zero] at h
    obtain rfl : (0 : ℚ) = y := by simpa using h
    rw [abs_zero] at h1
    exact absurd h1 (not_lt.2 (Fl.zp_pos _).le)
  have lo : ∀ {u : ℚ}, (2 : ℚ) ^ (-126 : ℤ) ≤ u → (2 : ℚ) ^ (-275 : ℤ) ≤ |g * u| := by
    intro u hu
    rw [abs_mul, abs_of_pos (lt_of_lt_of_le (Fl.zp_pos _) hu)]
    refine le_trans ?_ (mul_le_mul hg hu (Fl.zp_pos _).le (abs_nonneg _))
    rw [← zpow_add₀ (by norm_num)]
    exact z (by norm_num)
  have hi : ∀ {u : ℚ}, (2 : ℚ) ^ (-126 : ℤ) ≤ u → u ≤ 2 ^ (127 : ℤ) → |g * u| ≤ 2 ^ (255 : ℤ) := by
    intro u hu hu2
    have hu0 : 0 < u := lt_of_lt_of_le (Fl.zp_pos _) hu
    rw [abs_mul, abs_of_pos hu0]
    refine le_trans (mul_le_mul hg2 hu2 hu0.le (Fl.zp_pos _).le) ?_
    rw [← zpow_add₀ (by norm_num)]
    exact z (by norm_num)
  have ea : g * (f * 2 ^ j) = g * f * 2 ^ j := by ring
  have la := lo hf
  have la' := lo hf'
  have ha := hi hf hf2
  have ha' := hi hf' hf2'
  rw [ea] at la' ha'
  obtain ⟨P, e1, e2, e3⟩ := Fl.r64_mul_pow (x := g * f) (j := j) (le_trans (z (by norm_num)) la) (le_trans ha (z (by norm_num)))
    (le_trans (z (by norm_num)) la') (le_trans ha' (z (by norm_num)))
  have lP := r64_pow_le (k := -300) (by norm_num) e1 (le_trans (z (by norm_num)) la)
  have lP' := r64_pow_le (k := -300) (by norm_num) e2 (le_trans (z (by norm_num)) la')
  have hPx : |P| ≤ 2 * |g * f| := by
    have h53 : (2 : ℚ) ^ (-53 : ℤ) ≤ 1 := by norm_num
    have h4 := mul_le_mul_of_nonneg_left h53 (abs_nonneg (g * f))
    have h5 := abs_sub_abs_le_abs_sub P (g * f)
    generalize |g * f| * 2 ^ (-53 : ℤ) = t at h4 e3
    linarith
  have two : ∀ {t : ℚ}, t ≤ 2 ^ (255 : ℤ) → 2 * t ≤ 2 ^ (300 : ℤ) := by
    intro t ht
    refine le_trans (mul_le_mul_of_nonneg_left ht (by norm_num)) ?_
    rw [show (2 : ℚ) * 2 ^ (255 : ℤ) = 2 ^ (256 : ℤ) by norm_num]
    exact z (by norm_num)
  have es : ∀ a : ℚ, |a * 2 ^ j| = |a| * 2 ^ j := fun a => by rw [abs_mul, abs_of_pos (Fl.zp_pos j)]
  have uP := le_trans hPx (two ha)
  have uP' : |P * 2 ^ j| ≤ 2 ^ (300 : ℤ) := by
    rw [es]
    refine le_trans (mul_le_mul_of_nonneg_right hPx (Fl.zp_pos j).le) ?_
    rw [mul_assoc, ← es]
    exact two ha'
  have em : Fl.mul Fl.r64 (.fin g) (.fin f) = .fin P := e1
  have em' : Fl.mul Fl.r64 (.fin g) (.fin (f * 2 ^ j)) = .fin (P * 2 ^ j) := by
    simp only [Fl.mul, ea, e2]
  rw [em] at h
  rw [em']
  rcases le_total 0 P with h0 | h0
  · rw [abs_of_nonneg h0] at lP uP
    rw [abs_of_nonneg (mul_nonneg h0 (Fl.zp_pos j).le)] at lP' uP'
    exact read_scaled hc hc2 lP uP lP' uP' h h1 h2 h1' h2'
  · rw [abs_of_nonpos h0] at lP uP
    rw [abs_of_nonpos (mul_nonpos_of_nonpos_of_nonneg h0 (Fl.zp_pos j).le), ← neg_mul] at lP' uP'
    rw [← mul_neg_neg] at h
    rw [← mul_neg_neg, ← neg_mul]
    exact read_scaled (by rw [abs_neg, neg_eq_zero]; exact hc) (by rw [abs_neg]; exact hc2) lP uP lP' uP' h h1 h2 h1' h2'

theorem r32_float {x y : ℚ} (h : Fl.r32 x = .fin y) : (y = 0 ∨ (2 : ℚ) ^ (-149 : ℤ) ≤ |y|) ∧ |y| ≤ 2 ^ (128 : ℤ) := by
  unfold Fl.r32 Fl.round at h
  split at h
  · rename_i hlt
    obtain rfl : Fl.rnd Fl.binary32 x = y := by simpa using h
    refine ⟨?_, hlt.le⟩
    rcases eq_or_ne (Fl.rnd Fl.binary32 x) 0 with h0 | h0
    · exact Or.inl h0
    · exact Or.inr (Fl.repr32_ge (by rw [Fl.abs_rnd]; exact Fl.repr_rnd _ _) (abs_pos.2 h0))
  · cases h

/-- The same for any channel factor. -/
theorem read_any {c g : Fl} {f : ℚ} {j : ℤ}
    (hc : c = .nan ∨ ∃ a, c = .fin a ∧ (a = 0 ∨ (2 : ℚ) ^ (-149 : ℤ) ≤ |a|) ∧ |a| ≤ 2 ^ (128 : ℤ))
    (hg : ∀ a, g = .fin a → (a = 0 ∨ (2 : ℚ) ^ (-149 : ℤ) ≤ |a|) ∧ |a| ≤ 2 ^ (128 : ℤ))
    (hf : (2 : ℚ) ^ (-126 : ℤ) ≤ f) (hf2 : f ≤ 2 ^ (127 : ℤ)) (hf' : (2 : ℚ) ^ (-126 : ℤ) ≤ f * 2 ^ j)
    (hf2' : f * 2 ^ j ≤ 2 ^ (127 : ℤ)) :
    (∀ y, Fl.cast Fl.r32 (Fl.mul Fl.r64 c (Fl.mul Fl.r64 g (.fin f))) = .fin y → (2 : ℚ) ^ (-126 : ℤ) < |y| →
      |y| < 2 ^ (127 : ℤ) → (2 : ℚ) ^ (-126 : ℤ) < |y * 2 ^ j| → |y * 2 ^ j| < 2 ^ (127 : ℤ) →
      Fl.cast Fl.r32 (Fl.mul Fl.r64 c (Fl.mul Fl.r64 g (.fin (f * 2 ^ j)))) = .fin (y * 2 ^ j)) ∧
    (Fl.cast Fl.r32 (Fl.mul Fl.r64 c (Fl.mul Fl.r64 g (.fin f))) = .nan →
      Fl.cast Fl.r32 (Fl.mul Fl.r64 c (Fl.mul Fl.r64 g (.fin (f * 2 ^ j)))) = .nan) := by
  have hf0 : 0 < f := lt_of_lt_of_le (Fl.zp_pos _) hf
  have hf0' : 0 < f * 2 ^ j := lt_of_lt_of_le (Fl.zp_pos _) hf'
  rcases hc with rfl | ⟨a, rfl, ha, ha2⟩
  · exact ⟨fun y hy => by simp [Fl.mul, Fl.cast] at hy, fun _ => by simp [Fl.mul, Fl.cast]⟩
  · cases g with
    | fin g =>
      obtain ⟨g1, g2⟩ := hg g rfl
      refine ⟨fun y hy y1 y2 y1' y2' => read_scaled2 ha ha2 g1 g2 hf hf2 hf' hf2' hy y1 y2 y1' y2', fun hy => ?_⟩
      exfalso
      have hfin : ∃ P, Fl.mul Fl.r64 (.fin g) (.fin f) = .fin P := by
        have hle : |g * f| ≤ 2 ^ (255 : ℤ) := by
          rw [abs_mul, abs_of_pos hf0]
          refine le_trans (mul_le_mul g2 hf2 hf0.le (Fl.zp_pos _).le) ?_
          rw [← zpow_add₀ (by norm_num)]
          exact zpow_le_zpow_right₀ (by norm_num) (by norm_num)
        have hr : Fl.Repr Fl.binary64 ((2 : ℚ) ^ (255 : ℤ)) := by
          have := Fl.repr_int_mul (f := Fl.binary64) 1 255 (by decide) (by norm_num [Fl.binary64])
          simpa using this
        refine ⟨Fl.rnd Fl.binary64 (g * f), ?_⟩
        simp only [Fl.mul, Fl.r64, Fl.round]
        rw [if_pos]
        rw [Fl.abs_rnd]
        have := Fl.rnd_mono (f := Fl.binary64) (by decide) hle
        rw [Fl.rnd_of_repr (by decide) hr] at this
        refine lt_of_le_of_lt this ?_
        exact zpow_lt_zpow_right₀ (by norm_num) (by decide)
      obtain ⟨P, hP⟩ := hfin
      rw [hP] at hy
      simp only [Fl.mul, Fl.r64, Fl.round] at hy
      split at hy
      · simp only [Fl.cast, Fl.r32, Fl.round] at hy
        split at hy <;> cases hy
      · cases hy
    | inf n =>
      have e : Fl.mul Fl.r64 (.inf n) (.fin f) = .inf n := by
        simp only [Fl.mul, if_neg hf0.ne', decide_eq_false (not_lt.2 hf0.le)]
        cases n <;> rfl
      have e' : Fl.mul Fl.r64 (.inf n) (.fin (f * 2 ^ j)) = .inf n := by
        simp only [Fl.mul, if_neg hf0'.ne', decide_eq_false (not_lt.2 hf0'.le)]
        cases n <;> rfl
      rw [e, e']
      refine ⟨fun y hy => ?_, id⟩
      exfalso
      simp only [Fl.mul] at hy
      split at hy <;> cases hy
    | nan => exact ⟨fun y hy => by simp [Fl.mul, Fl.cast] at hy, fun _ => by simp [Fl.mul, Fl.cast]⟩

end Dysco

namespace Dysco.Layout
open BytePacker TimeBlock Stochastic

variable {nR nPol nCh nAnt bits : Nat} {A A' : Nat → Nat × Nat} {D D' : Nat → Nat → Cx} {data data' : Block Cx}

/-- What is in a written block with row-frequency normalisation, and what is read from it. -/
theorem rf_block (sq : Fl → Fl) {e : Encoder} {b l : Nat → ℚ} {L : ℚ} (hT : Table e b l L) (hb : Supported bits)
    (hq : e.quantCount = 2 ^ bits) (hR : 0 < nR) (h : Holds nR (nPol * nCh) A D data) (dith : Nat → Nat) (fuel : Nat)
    {packed : Mem 8} {unpacked out : Buf Nat}
    (hp : packed.len = blockSize (nPol * (nCh + nR)) (symbolCount nR nPol nCh) bits)
    (hu : unpacked.len = symbolCount nR nPol nCh) (ho : out.len = symbolCount nR nPol nCh)
    (dflt : DataRow Cx) (rows : Block Cx) :
    ∃ (d : Mem 8) (x : Block Cx) (s : Nat → Nat), writeBlock (encData .rf sq e nPol nCh nAnt dith fuel data) bits
        (nPol * (nCh + nR)) (symbolCount nR nPol nCh) packed unpacked = .ok d ∧
      readBlock (decData .rf e nPol nCh nAnt A) bits (nPol * (nCh + nR)) (symbolCount nR nPol nCh) nR dflt d out rows = .ok x ∧
      (∀ j, j < symbolCount nR nPol nCh → s j < 2 ^ bits ∧ symbolAt bits (4 * (nPol * (nCh + nR))) d j = s j) ∧
      (∀ i, i < nPol * nCh → (metaView (nPol * (nCh + nR)) d).get i =
        Fl.cast Fl.r32 (Fl.div Fl.r64 (.fin 1) (RF.chF Fl.r64 (.fin L) nR nPol nCh D i))) ∧
      (∀ r p, r < nR → p < nPol → (metaView (nPol * (nCh + nR)) d).get (nPol * nCh + (r * nPol + p)) =
        Fl.cast Fl.r32 (RF.rowMeta Fl.r64 (.fin L) (RF.pMax nPol nCh D r p))) ∧
      (∀ r i, r < nR → i < nPol * nCh →
        encFn Fl.r32 e true (Fl.cast Fl.r32 (Fl.mul Fl.r64 (RF.rowed Fl.r64 (.fin L) nPol nCh D r i).re
          (RF.chF Fl.r64 (.fin L) nR nPol nCh D i))) (dith ((r * (nPol * nCh) + i) * 2)) =
            some (s ((r * (nPol * nCh) + i) * 2)) ∧
        encFn Fl.r32 e true (Fl.cast Fl.r32 (Fl.mul Fl.r64 (RF.rowed Fl.r64 (.fin L) nPol nCh D r i).im
          (RF.chF Fl.r64 (.fin L) nR nPol nCh D i))) (dith ((r * (nPol * nCh) + i) * 2 + 1)) =
            some (s ((r * (nPol * nCh) + i) * 2 + 1))) ∧
      ∀ r i, r < nR → i < nPol * nCh → (x.get r).vis.get i =
        ⟨Fl.cast Fl.r32 (Fl.mul Fl.r64 (e.level (s ((r * (nPol * nCh) + i) * 2)))
            (Fl.mul Fl.r64 ((metaView (nPol * (nCh + nR)) d).get i)
              ((metaView (nPol * (nCh + nR)) d).get (nPol * nCh + (r * nPol + i % nPol))))),
         Fl.cast Fl.r32 (Fl.mul Fl.r64 (e.level (s ((r * (nPol * nCh) + i) * 2 + 1)))
            (Fl.mul Fl.r64 ((metaView (nPol * (nCh + nR)) d).get i)
              ((metaView (nPol * (nCh + nR)) d).get (nPol * nCh + (r * nPol + i % nPol)))))⟩ := by
  have hcount : nPol * (nCh + nR) = nPol * nCh + nR * nPol := by
    rw [Nat.mul_add, Nat.mul_comm nPol nR]
  obtain ⟨m0, s0, w⟩ : ∃ m s, Writes (encData .rf sq e nPol nCh nAnt dith fuel data)
      (nPol * (nCh + nR)) (symbolCount nR nPol nCh) e.quantCount m s := by
    rcases dataWrites (nAnt := nAnt) .rf sq hT h hR (by simp) dith fuel with ⟨h1, -⟩ | h1
    · cases h1
    · exact h1
  have w' := w
  rw [hq] at w
  obtain ⟨blk, l1, g1, g2, g3⟩ := writeBlock_spec hb w
  obtain ⟨d, e1, l2, e2⟩ := g1 packed unpacked hp hu
  have hH : End.BlockHolds bits (nPol * (nCh + nR)) (symbolCount nR nPol nCh) m0 s0 d := End.holds_of_writes hb w hp hu e1
  have hRd : Reads (decData .rf e nPol nCh nAnt A) (nPol * (nCh + nR)) (symbolCount nR nPol nCh) e.quantCount nR (nPol * nCh)
      (valueOf .rf e nPol nCh nAnt A) := dataReads .rf hT (by simp)
  rw [hq] at hRd
  obtain ⟨x, e3, -, g4⟩ := readBlock_spec hRd hH.metaLen hH.symLen hH.below hH.size hH.floats hH.symbols dflt out ho rows
  obtain ⟨m, s, a1, a2, a3, a4, a5, -, -, -, a8⟩ := RF.encode_spec (RF := Fl.r32) (RD := Fl.r64) (hT.total Fl.r32 true)
    (maxLevel := e.maxQuantity) (dith := dith) h ⟨nPol * (nCh + nR), fun _ => .nan⟩ (by simp only; omega)
    ⟨symbolCount nR nPol nCh, fun _ => 0⟩ (by rw [symbolCount_eq])
  obtain ⟨m1, s1, b1, -, -, b4, b5⟩ := w'.same ⟨nPol * (nCh + nR), fun _ => .nan⟩ ⟨symbolCount nR nPol nCh, fun _ => 0⟩ rfl
    (fun _ _ => rfl) rfl
  obtain ⟨rfl, rfl⟩ : m = m1 ∧ s = s1 := by
    simp only [encData] at b1
    rw [a1] at b1
    simpa using b1
  have hrow : ∀ {r p}, r < nR → p < nPol → nPol * nCh + (r * nPol + p) < nPol * (nCh + nR) := by
    intro r p hr hp'
    have := flat_lt hr hp'
    omega
  refine ⟨d, x, s0.get, e1, e3, fun j hj => ⟨w.below j hj, ?_⟩, fun i hi => ?_, fun r p hr hp' => ?_, fun r i hr hi => ?_,
    fun r i hr hi => ?_⟩
  · obtain ⟨t, c1, -, c3⟩ := unpack_any hb hH.size ⟨symbolCount nR nPol nCh, fun _ => 0⟩ rfl
    obtain ⟨t', c1', -, c3'⟩ := hH.symbols ⟨symbolCount nR nPol nCh, fun _ => 0⟩ rfl
    rw [c1] at c1'
    obtain rfl : t = t' := by simpa using c1'
    rw [← c3 j hj, c3' j hj]
  · rw [hH.floats i (by omega), ← b4 i (by omega), a4 i hi, hT.maxQuantity]
  · rw [hH.floats _ (hrow hr hp'), ← b4 _ (hrow hr hp'), a5 r p hr hp', hT.maxQuantity]
  · have hlt : (r * (nPol * nCh) + i) * 2 + 1 < symbolCount nR nPol nCh := by
      rw [symbolCount_eq]
      have := flat_lt hr hi
      omega
    have := a8 r i hr hi
    rw [hT.maxQuantity] at this
    rw [← b5 _ (by omega), ← b5 _ hlt]
    exact this
  · have hp0 : 0 < nPol := Nat.pos_of_ne_zero (by rintro rfl; simp at hi)
    rw [(g4 r hr).2 i hi, hH.floats i (by omega), hH.floats _ (hrow hr (Nat.mod_lt _ hp0))]
    rfl

/-- **C135** Data `D`, and the same data with the values of row `r` and polarisation `p` multiplied by `2 ^ j r p`, written
with row-frequency normalisation and the same dither values. Every row and polarisation has a positive largest value or does
not change at all. Then
* all symbols are the same in both blocks,
* all channel factors are the same,
* the row factor of row `r` and polarisation `p` is multiplied by `2 ^ j r p`, if it is a normal float before and after,
* then so is every value that is read back and is a normal float before and after; NaN stays NaN. -/
theorem rf_scaled (sq : Fl → Fl) {e : Encoder} {b l : Nat → ℚ} {L : ℚ} (hT : Table e b l L)
    (hl : ∀ i, i < e.n → Fl.Repr Fl.binary32 (l i) ∧ |l i| < 2 ^ (128 : ℤ))
    (hb : Supported bits) (hq : e.quantCount = 2 ^ bits) (hR : 0 < nR) (j : Nat → Nat → ℤ)
    (h : Holds nR (nPol * nCh) A D data)
    (h' : Holds nR (nPol * nCh) A' (fun r i => (D r i).scale2 (j r (i % nPol))) data')
    (hF : ∀ r i, r < nR → i < nPol * nCh → FloatVis (D r i))
    (hF' : ∀ r i, r < nR → i < nPol * nCh → FloatVis ((D r i).scale2 (j r (i % nPol))))
    (hall : ∀ r p, r < nR → p < nPol → (∃ M, RF.RowPolMax nPol nCh D r p M ∧ 0 < M) ∨
      ∀ ch, ch < nCh → (D r (ch * nPol + p)).scale2 (j r p) = D r (ch * nPol + p))
    (dith : Nat → Nat) (fuel : Nat) {packed packed' : Mem 8} {unpacked unpacked' out out' : Buf Nat}
    (hp : packed.len = blockSize (nPol * (nCh + nR)) (symbolCount nR nPol nCh) bits)
    (hp' : packed'.len = blockSize (nPol * (nCh + nR)) (symbolCount nR nPol nCh) bits)
    (hu : unpacked.len = symbolCount nR nPol nCh) (hu' : unpacked'.len = symbolCount nR nPol nCh)
    (ho : out.len = symbolCount nR nPol nCh) (ho' : out'.len = symbolCount nR nPol nCh)
    (dflt dflt' : DataRow Cx) (rows rows' : Block Cx) :
    ∃ d d' x x', writeBlock (encData .rf sq e nPol nCh nAnt dith fuel data) bits (nPol * (nCh + nR))
        (symbolCount nR nPol nCh) packed unpacked = .ok d ∧
      writeBlock (encData .rf sq e nPol nCh nAnt dith fuel data') bits (nPol * (nCh + nR))
        (symbolCount nR nPol nCh) packed' unpacked' = .ok d' ∧
      readBlock (decData .rf e nPol nCh nAnt A) bits (nPol * (nCh + nR)) (symbolCount nR nPol nCh) nR dflt d out rows = .ok x ∧
      readBlock (decData .rf e nPol nCh nAnt A') bits (nPol * (nCh + nR)) (symbolCount nR nPol nCh) nR dflt' d' out' rows' =
        .ok x' ∧
      (∀ k, k < nR * (nPol * nCh) * 2 → symbolAt bits (4 * (nPol * (nCh + nR))) d' k =
        symbolAt bits (4 * (nPol * (nCh + nR))) d k) ∧
      (∀ i, i < nPol * nCh → (metaView (nPol * (nCh + nR)) d').get i = (metaView (nPol * (nCh + nR)) d).get i) ∧
      ∀ r p M, r < nR → p < nPol → RF.RowPolMax nPol nCh D r p M → 0 < M →
        (2 : ℚ) ^ (-126 : ℤ) ≤ M / L → M / L ≤ 2 ^ (126 : ℤ) → (2 : ℚ) ^ (-126 : ℤ) ≤ M * 2 ^ j r p / L →
        M * 2 ^ j r p / L ≤ 2 ^ (126 : ℤ) →
        (∃ f, (metaView (nPol * (nCh + nR)) d).get (nPol * nCh + (r * nPol + p)) = .fin f ∧
          (metaView (nPol * (nCh + nR)) d').get (nPol * nCh + (r * nPol + p)) = .fin (f * 2 ^ j r p)) ∧
        ∀ ch, ch < nCh →
          (∀ y, ((x.get r).vis.get (ch * nPol + p)).re = .fin y → (2 : ℚ) ^ (-126 : ℤ) < |y| → |y| < 2 ^ (127 : ℤ) →
            (2 : ℚ) ^ (-126 : ℤ) < |y * 2 ^ j r p| → |y * 2 ^ j r p| < 2 ^ (127 : ℤ) →
            ((x'.get r).vis.get (ch * nPol + p)).re = .fin (y * 2 ^ j r p)) ∧
          (∀ y, ((x.get r).vis.get (ch * nPol + p)).im = .fin y → (2 : ℚ) ^ (-126 : ℤ) < |y| → |y| < 2 ^ (127 : ℤ) →
            (2 : ℚ) ^ (-126 : ℤ) < |y * 2 ^ j r p| → |y * 2 ^ j r p| < 2 ^ (127 : ℤ) →
            ((x'.get r).vis.get (ch * nPol + p)).im = .fin (y * 2 ^ j r p)) ∧
          (((x.get r).vis.get (ch * nPol + p)).re = .nan → ((x'.get r).vis.get (ch * nPol + p)).re = .nan) ∧
          (((x.get r).vis.get (ch * nPol + p)).im = .nan → ((x'.get r).vis.get (ch * nPol + p)).im = .nan) := by
  have hn : e.n - 1 < e.n := by have := hT.levels.two; omega
  have hLr : Fl.Repr Fl.binary32 L := by rw [← hT.top]; exact (hl _ hn).1
  have hL2 : L < 2 ^ (128 : ℤ) := by rw [← hT.top]; exact lt_of_le_of_lt (le_abs_self _) (hl _ hn).2
  obtain ⟨d, x, s, e1, e2, e3, e4, e5, e6, e7⟩ := rf_block (nAnt := nAnt) sq hT hb hq hR h dith fuel hp hu ho dflt rows
  obtain ⟨d', x', s', e1', e2', e3', e4', e5', e6', e7'⟩ := rf_block (nAnt := nAnt) sq hT hb hq hR h' dith fuel hp' hu' ho'
    dflt' rows'
  have idx : ∀ {ch p}, ch < nCh → p < nPol → ch * nPol + p < nPol * nCh ∧ (ch * nPol + p) % nPol = p := by
    intro ch p hch hp0
    refine ⟨by have := flat_lt hch hp0; rwa [Nat.mul_comm nCh] at this, ?_⟩
    rw [Nat.mul_comm, Nat.mul_add_mod, Nat.mod_eq_of_lt hp0]
  -- the maximum of a row and polarisation
  have hmax : ∀ r p M, r < nR → p < nPol → RF.RowPolMax nPol nCh D r p M →
      RF.RowPolMax nPol nCh (fun r i => (D r i).scale2 (j r (i % nPol))) r p (M * 2 ^ j r p) := by
    intro r p M hr hp0 hM
    have h1 := isMax_scale2 (j r p) hM
    have e0 : (fun ch => (D r (ch * nPol + p)).scale2 (j r p)) =
        fun ch => (D r (ch * nPol + p)).scale2 (j r ((ch * nPol + p) % nPol)) := by
      funext ch
      rw [Nat.mul_comm ch, Nat.mul_add_mod, Nat.mod_eq_of_lt hp0]
    unfold RF.RowPolMax
    rw [← e0]
    exact h1
  have hfl : ∀ r p M, r < nR → p < nPol → RF.RowPolMax nPol nCh D r p M → Fl.Repr Fl.binary32 M ∧ M < 2 ^ (128 : ℤ) :=
    fun r p M hr hp0 hM => Row.max_float hM (fun ch hch => hF r _ hr (idx hch hp0).1)
  have hfl' : ∀ r p M, r < nR → p < nPol → RF.RowPolMax nPol nCh D r p M →
      Fl.Repr Fl.binary32 (M * 2 ^ j r p) ∧ M * 2 ^ j r p < 2 ^ (128 : ℤ) :=
    fun r p M hr hp0 hM => Row.max_float (hmax r p M hr hp0 hM) (fun ch hch => hF' r _ hr (idx hch hp0).1)
  -- the row stage leaves the same values
  have hrowed : ∀ r i, r < nR → i < nPol * nCh →
      RF.rowed Fl.r64 (.fin L) nPol nCh (fun r i => (D r i).scale2 (j r (i % nPol))) r i =
        RF.rowed Fl.r64 (.fin L) nPol nCh D r i := by
    intro r i hr hi
    have hp0 : 0 < nPol := Nat.pos_of_ne_zero (by rintro rfl; simp at hi)
    have hpl : i % nPol < nPol := Nat.mod_lt _ hp0
    rcases hall r (i % nPol) hr hpl with ⟨M, hM, hM0⟩ | hz
    · have hM' := hmax r _ M hr hpl hM
      obtain ⟨hMr, hM2⟩ := hfl r _ M hr hpl hM
      obtain ⟨hMr', hM2'⟩ := hfl' r _ M hr hpl hM
      obtain ⟨-, Q, Q0, q1, q2⟩ := r64_ratio hMr hM0 hM2 hMr' hM2' hLr hT.pos hL2
      have f1 : RF.pMax nPol nCh D r (i % nPol) = .fin M := maxFold_eq hM
      have f2 : RF.pMax nPol nCh (fun r i => (D r i).scale2 (j r (i % nPol))) r (i % nPol) = .fin (M * 2 ^ j r (i % nPol)) :=
        maxFold_eq hM'
      unfold RF.rowed
      rw [f1, f2, rowFactor_pos hM0.ne', rowFactor_pos (mul_pos hM0 (Fl.zp_pos _)).ne', q1, q2]
      simp only [Cx.scale, Cx.scale2, component_scale2 _ Q0]
    · have hch : i / nPol < nCh := Nat.div_lt_of_lt_mul hi
      have ei : i / nPol * nPol + i % nPol = i := by rw [Nat.mul_comm]; exact Nat.div_add_mod i nPol
      have f2 : RF.pMax nPol nCh (fun r i => (D r i).scale2 (j r (i % nPol))) r (i % nPol) = RF.pMax nPol nCh D r (i % nPol) := by
        unfold RF.pMax
        refine TimeBlock.maxFold_congr fun ch hc => ?_
        have := hz ch hc
        simp only [(idx hc hpl).2]
        exact this
      unfold RF.rowed
      rw [f2]
      have := hz _ hch
      rw [ei] at this
      simp only [this]
  have hch : ∀ i, i < nPol * nCh → RF.chF Fl.r64 (.fin L) nR nPol nCh (fun r i => (D r i).scale2 (j r (i % nPol))) i =
      RF.chF Fl.r64 (.fin L) nR nPol nCh D i := by
    intro i hi
    unfold RF.chF
    rw [TimeBlock.maxFold_congr fun r hr => hrowed r i hr hi]
  have hs : ∀ r i, r < nR → i < nPol * nCh → s' ((r * (nPol * nCh) + i) * 2) = s ((r * (nPol * nCh) + i) * 2) ∧
      s' ((r * (nPol * nCh) + i) * 2 + 1) = s ((r * (nPol * nCh) + i) * 2 + 1) := by
    intro r i hr hi
    have h1 := e6 r i hr hi
    have h2 := e6' r i hr hi
    rw [hrowed r i hr hi, hch i hi, h1.1, h1.2] at h2
    exact ⟨by simpa using h2.1.symm, by simpa using h2.2.symm⟩
  have hlt : ∀ r i, r < nR → i < nPol * nCh → (r * (nPol * nCh) + i) * 2 + 1 < symbolCount nR nPol nCh := by
    intro r i hr hi
    rw [symbolCount_eq]
    have := flat_lt hr hi
    omega
  refine ⟨d, d', x, x', e1, e1', e2, e2', fun k hk => ?_, fun i hi => by rw [e4 i hi, e4' i hi, hch i hi],
    fun r p M hr hp0 hM hM0 b1 b2 b1' b2' => ?_⟩
  · have hk' : k < symbolCount nR nPol nCh := by rw [symbolCount_eq]; exact hk
    rw [(e3 k hk').2, (e3' k hk').2]
    have hV : 0 < nPol * nCh := Nat.pos_of_ne_zero (by intro h0; rw [h0] at hk; simp at hk)
    have hk2 : k / 2 < nR * (nPol * nCh) := by omega
    have hr : k / 2 / (nPol * nCh) < nR := (Nat.div_lt_iff_lt_mul hV).2 hk2
    have h1 := hs _ _ hr (Nat.mod_lt (k / 2) hV)
    have hdm := Nat.div_add_mod (k / 2) (nPol * nCh)
    rw [Nat.mul_comm] at hdm
    rw [hdm] at h1
    rcases Nat.mod_two_eq_zero_or_one k with h0 | h0
    · have ek : k / 2 * 2 = k := by omega
      rw [ek] at h1
      exact h1.1
    · have ek : k / 2 * 2 + 1 = k := by omega
      rw [ek] at h1
      exact h1.2
  · obtain ⟨hMr, hM2⟩ := hfl r p M hr hp0 hM
    obtain ⟨hMr', hM2'⟩ := hfl' r p M hr hp0 hM
    obtain ⟨f, m1, m2, lf, uf, lf', uf'⟩ := factor_scaled hMr hM0 hM2 hMr' hM2' hLr hT.pos hL2 b1 b2 b1' b2'
    have hrm : ∀ m, RF.rowMeta Fl.r64 (.fin L) m = Fl.div Fl.r64 m (.fin L) := fun m => by
      simp [RF.rowMeta, Fl.eq, hT.pos.ne']
    have f1 : RF.pMax nPol nCh D r p = .fin M := maxFold_eq hM
    have f2 : RF.pMax nPol nCh (fun r i => (D r i).scale2 (j r (i % nPol))) r p = .fin (M * 2 ^ j r p) :=
      maxFold_eq (hmax r p M hr hp0 hM)
    have k1 := e5 r p hr hp0
    have k2 := e5' r p hr hp0
    rw [hrm, f1, m1] at k1
    rw [hrm, f2, m2] at k2
    refine ⟨⟨f, k1, k2⟩, fun ch hch' => ?_⟩
    obtain ⟨hi, hmod⟩ := idx hch' hp0
    have hg : ∀ a, (metaView (nPol * (nCh + nR)) d).get (ch * nPol + p) = .fin a →
        (a = 0 ∨ (2 : ℚ) ^ (-149 : ℤ) ≤ |a|) ∧ |a| ≤ 2 ^ (128 : ℤ) := by
      intro a ha
      rw [e4 _ hi] at ha
      cases hx : Fl.div Fl.r64 (.fin 1) (RF.chF Fl.r64 (.fin L) nR nPol nCh D (ch * nPol + p)) with
      | fin t =>
        rw [hx] at ha
        exact r32_float ha
      | inf n => rw [hx] at ha; cases ha
      | nan => rw [hx] at ha; cases ha
    have hlev : ∀ k, k < symbolCount nR nPol nCh → e.level (s k) = .nan ∨
        ∃ a, e.level (s k) = .fin a ∧ (a = 0 ∨ (2 : ℚ) ^ (-149 : ℤ) ≤ |a|) ∧ |a| ≤ 2 ^ (128 : ℤ) := by
      intro k hk
      rcases Nat.lt_or_ge (s k) e.n with hsk | hsk
      · obtain ⟨l1, l2⟩ := hl _ hsk
        refine Or.inr ⟨_, hT.levels.eq _ hsk, ?_, l2.le⟩
        rcases eq_or_ne (l (s k)) 0 with h0 | h0
        · exact Or.inl h0
        · refine Or.inr (Fl.repr32_ge ?_ (abs_pos.2 h0))
          rcases abs_choice (l (s k)) with ha | ha <;> rw [ha]
          · exact l1
          · exact l1.neg
      · left
        have h1 := (e3 k hk).1
        rw [← hq, Encoder.quantCount] at h1
        obtain h2 : s k = e.n := by omega
        rw [h2, hT.levels.slot]
    have hl2 := hlt r _ hr hi
    have r1 := read_any (j := j r p) (hlev ((r * (nPol * nCh) + (ch * nPol + p)) * 2) (by omega)) hg lf uf lf' uf'
    have r2 := read_any (j := j r p) (hlev _ hl2) hg lf uf lf' uf'
    have em : (metaView (nPol * (nCh + nR)) d').get (ch * nPol + p) = (metaView (nPol * (nCh + nR)) d).get (ch * nPol + p) := by
      rw [e4 _ hi, e4' _ hi, hch _ hi]
    rw [e7 r _ hr hi, e7' r _ hr hi, (hs r _ hr hi).1, (hs r _ hr hi).2, hmod, k1, k2, em]
    exact ⟨r1.1, r2.1, r1.2, r2.2⟩

/-! ## Example -/

/-- Two rows of one sample `1 + i/2`, the second row multiplied by two: all symbols and the channel factor are the same, and
the factor of the second row is twice as large. -/
example (packed packed' : Mem 8) (hl : packed.len = 13) (hl' : packed'.len = 13) (dflt : DataRow Cx) (rows : Block Cx) :
    ∃ d d', writeBlock (encData .rf id Row.smallTable 1 1 2 (fun _ => 0) 5
        ⟨2, fun _ => ⟨0, 1, ⟨1, fun _ => ⟨.fin 1, .fin (1 / 2)⟩⟩⟩⟩) 2 3 4 packed ⟨4, fun _ => 0⟩ = .ok d ∧
      writeBlock (encData .rf id Row.smallTable 1 1 2 (fun _ => 0) 5
        ⟨2, fun r => ⟨0, 1, ⟨1, fun _ => (⟨.fin 1, .fin (1 / 2)⟩ : Cx).scale2 r⟩⟩⟩) 2 3 4 packed' ⟨4, fun _ => 0⟩ = .ok d' ∧
      (∀ k, k < 4 → symbolAt 2 12 d' k = symbolAt 2 12 d k) ∧ (metaView 3 d').get 0 = (metaView 3 d).get 0 ∧
      ∃ f, (metaView 3 d).get 2 = .fin f ∧ (metaView 3 d').get 2 = .fin (f * 2 ^ (1 : ℤ)) := by
  have hM : ∀ r, RF.RowPolMax 1 1 (fun _ _ : Nat => (⟨.fin 1, .fin (1 / 2)⟩ : Cx)) r 0 1 := by
    intro r
    refine ⟨by norm_num, fun i m _ h => ?_, Or.inr ⟨0, by decide, 1, rfl, Or.inl ⟨1 / 2, rfl, by norm_num [abs_of_pos]⟩⟩⟩
    obtain ⟨a, h1, ⟨b, h2, h3⟩ | ⟨h2, -⟩⟩ := h
    · obtain rfl : (1 : ℚ) = a := by simpa using h1
      obtain rfl : (1 / 2 : ℚ) = b := by simpa using h2
      rw [h3]
      norm_num [abs_of_pos]
    · cases h2
  have hf : ∀ a : ℚ, a = 1 ∨ a = 1 / 2 ∨ a = 2 → Fl.Repr Fl.binary32 a ∧ |a| < 2 ^ (128 : ℤ) := by
    intro a ha
    rcases ha with rfl | rfl | rfl
    · refine ⟨?_, by norm_num⟩
      simpa using Fl.repr_int_mul (f := Fl.binary32) 1 0 (by decide) (by norm_num [Fl.binary32])
    · refine ⟨?_, by norm_num [abs_of_pos]⟩
      simpa using Fl.repr_int_mul (f := Fl.binary32) 1 (-1) (by decide) (by norm_num [Fl.binary32])
    · refine ⟨?_, by norm_num⟩
      simpa using Fl.repr_int_mul (f := Fl.binary32) 1 1 (by decide) (by norm_num [Fl.binary32])
  have hl0 : ∀ i, i < Row.smallTable.n → Fl.Repr Fl.binary32 ((i : ℚ) - 1) ∧ |(i : ℚ) - 1| < 2 ^ (128 : ℤ) := by
    intro i hi
    have hi : i < 3 := hi
    obtain rfl | rfl | rfl : i = 0 ∨ i = 1 ∨ i = 2 := by omega
    · have := hf 1 (Or.inl rfl)
      rw [show ((0 : Nat) : ℚ) - 1 = -1 by norm_num, abs_neg]
      exact ⟨this.1.neg, this.2⟩
    · rw [show ((1 : Nat) : ℚ) - 1 = 0 by norm_num, abs_zero]
      exact ⟨Fl.Repr.zero _, Fl.zp_pos _⟩
    · rw [show ((2 : Nat) : ℚ) - 1 = 1 by norm_num]
      exact hf 1 (Or.inl rfl)
  obtain ⟨d, d', x, x', e1, e2, -, -, h1, h2, h3⟩ := rf_scaled (nR := 2) (nPol := 1) (nCh := 1) (nAnt := 2) (bits := 2)
    (A := fun _ => (0, 1)) (A' := fun _ => (0, 1)) (D := fun _ _ => ⟨.fin 1, .fin (1 / 2)⟩) id Row.smallTable_ok hl0 (Or.inl rfl) rfl
    (by decide) (fun r _ => r) (data := ⟨2, fun _ => ⟨0, 1, ⟨1, fun _ => ⟨.fin 1, .fin (1 / 2)⟩⟩⟩⟩)
    (data' := ⟨2, fun r => ⟨0, 1, ⟨1, fun _ => (⟨.fin 1, .fin (1 / 2)⟩ : Cx).scale2 r⟩⟩⟩)
    ⟨rfl, fun _ _ => rfl, fun _ _ => rfl, fun _ _ _ _ => rfl⟩ ⟨rfl, fun _ _ => rfl, fun _ _ => rfl, fun _ _ _ _ => rfl⟩
    (fun r i _ _ a ha => hf a (by
      rcases ha with ha | ha
      · exact Or.inl (by simpa using ha.symm)
      · exact Or.inr (Or.inl (by simpa using ha.symm))))
    (fun r i hr _ a ha => hf a (by
      simp only [Cx.scale2, Fl.scale2] at ha
      obtain rfl | rfl : r = 0 ∨ r = 1 := by omega
      · rcases ha with ha | ha
        · exact Or.inl (by simpa using (Fl.fin.inj ha).symm)
        · exact Or.inr (Or.inl (by simpa using (Fl.fin.inj ha).symm))
      · rcases ha with ha | ha
        · refine Or.inr (Or.inr ?_)
          have := (Fl.fin.inj ha).symm
          norm_num at this
          exact this
        · refine Or.inl ?_
          have := (Fl.fin.inj ha).symm
          norm_num at this
          exact this))
    (fun r p _ hp => Or.inl (by
      obtain rfl : p = 0 := by omega
      exact ⟨1, hM r, by norm_num⟩))
    (fun _ => 0) 5 hl hl' (unpacked := ⟨4, fun _ => 0⟩) (unpacked' := ⟨4, fun _ => 0⟩) (out := ⟨4, fun _ => 0⟩)
    (out' := ⟨4, fun _ => 0⟩) rfl rfl rfl rfl dflt dflt rows rows
  refine ⟨d, d', e1, e2, h1, h2 0 (by decide), (h3 1 0 1 (by decide) (by decide) (hM 1) (by norm_num) ?_ ?_ ?_ ?_).1⟩
  all_goals norm_num

end Dysco.Layout
