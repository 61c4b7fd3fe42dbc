import Verif.PowerRF
import Verif.TwisterProps

/-!
# C142: dithering makes row-frequency normalised data unbiased

The same as C140 and C141 for the two factors of row-frequency normalisation.
-/

namespace Dysco.Row
open Stochastic

/-- The mean of the levels over the dither values. Either it is the number up to `2^-22` of the largest step, or the number is
not above the lowest level and always gets that level. -/
theorem level_mean {e : Encoder} {b l : Nat → ℚ} {x L g : ℚ} (hT : Table e b l L) (hf : FloatLevels e.n l)
    (hg : Gaps e.n l g) (hlo : -(5 / 4 * L) ≤ l 0) (hxr : Fl.Repr Fl.binary32 x) (hx : |x| ≤ L) {s : Nat → Nat}
    (hs : ∀ m, m < 2 ^ 31 → e.encodeDither Fl.r32 (.fin x) m = some (s m)) (hq : ∀ m, m < 2 ^ 31 → s m < e.quantCount) :
    ∃ v : Nat → ℚ, (∀ m, m < 2 ^ 31 → e.level (s m) = .fin (v m) ∧ |v m| ≤ 5 / 4 * L ∧ Fl.Repr Fl.binary32 (v m)) ∧
      (|mean v - x| ≤ g / 2 ^ 22 ∨ x ≤ l 0 ∧ mean v = l 0 ∧ ∀ m, m < 2 ^ 31 → s m = 0) := by
  have hn := hT.levels.two
  have hlev : ∀ m, m < 2 ^ 31 → e.level (s m) = .fin (l (s m)) ∧ (|l (s m)| ≤ 5 / 4 * L ∧ Fl.Repr Fl.binary32 (l (s m))) ∧
      Stochastic.valueOf ((e.encodeDither Fl.r32 (.fin x) m).bind e.decode) = l (s m) ∧ (x ≤ l 0 → s m = 0) := by
    intro m hm
    have h1 := hs m hm
    have hd := hT.decode_some (hq m hm)
    obtain ⟨s', g1, g2, g3⟩ := dither_neighbour hT.levels Fl.r32 x m
    obtain rfl : s' = s m := by
      rw [g1] at h1
      exact Option.some.inj h1
    have h2 := hT.levels.eq _ g2
    refine ⟨h2, ⟨level_le hT hlo _ _ (hd.trans (by rw [h2])), (hf _ g2).1⟩, ?_, fun hx0 => ?_⟩
    · rw [h1]
      simp only [Option.bind_some, hd, h2, Stochastic.valueOf]
    · rcases g3 with ⟨-, g3⟩ | ⟨g3, -⟩ | ⟨k, k1, k2, -⟩
      · exact g3
      · have := StrictlyAscending.asc hT.levels.asc 0 (e.n - 1) (by omega) (by omega)
        linarith
      · have := StrictlyAscending.asc hT.levels.asc 0 k (by omega) (by omega)
        linarith
  refine ⟨fun m => l (s m), fun m hm => ⟨(hlev m hm).1, (hlev m hm).2.1⟩, ?_⟩
  rcases le_or_gt x (l 0) with h0 | h0
  · refine Or.inr ⟨h0, ?_, fun m hm => (hlev m hm).2.2.2 h0⟩
    have e0 : ∀ m ∈ Finset.range (2 ^ 31), l (s m) = l 0 := fun m hm => by rw [(hlev m (Finset.mem_range.1 hm)).2.2.2 h0]
    unfold mean
    rw [Finset.sum_congr rfl e0, Finset.sum_const, Finset.card_range, nsmul_eq_mul]
    push_cast
    ring
  · left
    obtain ⟨k, k1, -, -, k4⟩ := dither_mean_float hT.levels hf x hxr h0 (by rw [hT.top]; exact (abs_le.1 hx).2)
    have : mean (fun m => l (s m)) = (∑ m ∈ Finset.range (2 ^ 31),
        Stochastic.valueOf ((e.encodeDither Fl.r32 (.fin x) m).bind e.decode)) / 2 ^ 31 := by
      unfold mean
      rw [Finset.sum_congr rfl fun m hm => ((hlev m (Finset.mem_range.1 hm)).2.2.1).symm]
    rw [this]
    exact le_trans k4 (div_le_div_of_nonneg_right (hg k k1) (by norm_num))

/-- The mean of values with a bound. -/
theorem abs_mean_le {v : Nat → ℚ} {t : ℚ} (h : ∀ m, m < 2 ^ 31 → |v m| ≤ t) : |mean v| ≤ t := by
  have : ∀ m, m < 2 ^ 31 → |v m - v m * 0| ≤ t := fun m hm => by rw [mul_zero, sub_zero]; exact h m hm
  have := mean_sub_le this
  rwa [mul_zero, sub_zero] at this

end Dysco.Row

namespace Dysco.RF
open TimeBlock Stochastic

variable {nR nPol nCh : Nat} {A : Nat → Nat × Nat} {D : Nat → Nat → Cx} {data : Block Cx}

/-- One component: what is given to the quantiser, and what is read. -/
theorem component_parts {e : Encoder} {b l : Nat → ℚ} {L : ℚ} (hT : Table e b l L)
    (hLr : Fl.Repr Fl.binary32 L)
    (hF : ∀ r i, r < nR → i < nPol * nCh → FloatVis (D r i))
    (M : Nat → Nat → ℚ) (hM : ∀ r p, r < nR → p < nPol → RowPolMax nPol nCh D r p (M r p))
    (hM2 : ∀ r p, r < nR → p < nPol → M r p ≤ 2 ^ (127 : ℤ) ∧ M r p / L ≤ 2 ^ (127 : ℤ))
    (K : Nat → ℚ) (hK1 : ∀ i, i < nPol * nCh → K i ≤ 1)
    (hK : ∀ r i m, r < nR → i < nPol * nCh → Counted (D r i) m → m ≤ K i * M r (i % nPol))
    (hK0 : ∀ i, i < nPol * nCh → K i = 1 ∨ ∃ r m, r < nR ∧ Counted (D r i) m ∧ m ≠ 0)
    {r i : Nat} (hr : r < nR) (hi : i < nPol * nCh) {m a : ℚ} (hc : Counted (D r i) m)
    (hM0 : 0 < M r (i % nPol)) {part : Cx → Fl} (hpart : part = Cx.re ∨ part = Cx.im) (ha : part (D r i) = .fin a) :
    ∃ x c P q : ℚ, Fl.cast Fl.r32 (Fl.mul Fl.r64 (part (rowed Fl.r64 (.fin L) nPol nCh D r i))
        (chF Fl.r64 (.fin L) nR nPol nCh D i)) = .fin x ∧ |x| ≤ L ∧
      q * L = M r (i % nPol) ∧ 0 < q ∧ 0 < c ∧ c ≤ K i * (1 + 1 / 2251799813685248) ∧ |a| ≤ K i * M r (i % nPol) ∧
      |P * q - a| ≤ |a| * (1 / 2251799813685248) ∧ |x * c - P| ≤ c * (L * (1 / 16000000) + 2 ^ (-150 : ℤ)) ∧
      ∀ lev, |lev| ≤ 5 / 4 * L → ∃ y, Fl.cast Fl.r32 (Fl.mul Fl.r64 (.fin lev) (Fl.mul Fl.r64
          (Fl.cast Fl.r32 (Fl.div Fl.r64 (.fin 1) (chF Fl.r64 (.fin L) nR nPol nCh D i)))
          (Fl.cast Fl.r32 (rowMeta Fl.r64 (.fin L) (pMax nPol nCh D r (i % nPol)))))) = .fin y ∧
        |y - lev * (c * q)| ≤ c * M r (i % nPol) * (1 / 4200000) + (M r (i % nPol) + 3 * L + 1) * 2 ^ (-149 : ℤ) := by
  have hL2 : L < 2 ^ (128 : ℤ) := lt_of_le_of_lt hT.le fltMax_lt
  have hp : 0 < nPol := Nat.pos_of_ne_zero (by rintro rfl; simp at hi)
  have hip := Nat.mod_lt i hp
  have hL := hT.pos
  obtain ⟨hfl, hcomp, hcounted, hkeep, hchan⟩ := row_stage_facts hL hLr hL2 hF
  obtain ⟨C, eC, hC, hC0, hC2⟩ := hchan i hi
  have hMr := hM r _ hr hip
  obtain ⟨hMb, hMq⟩ := hM2 r _ hr hip
  have hpm : pMax nPol nCh D r (i % nPol) = .fin (M r (i % nPol)) := maxFold_eq hMr
  obtain ⟨hrep, hMlt⟩ : Fl.Repr Fl.binary32 (M r (i % nPol)) ∧ M r (i % nPol) < 2 ^ (128 : ℤ) := by
    obtain ⟨M', hM', _, h1, h2⟩ := hfl r i hr hi
    obtain rfl := hM'.unique hMr
    exact ⟨h1, h2⟩
  -- the channel maximum is within the given bound
  have hCK : 0 < C → C / L ≤ K i * (1 + 1 / 2251799813685248) := by
    intro hpos
    rcases hC.2.2 with h0 | ⟨r', hr', hcr⟩
    · exact absurd h0 hpos.ne'
    · obtain ⟨P, hP, hPC⟩ := hcr.attained
      obtain ⟨a', ha', ePa⟩ := rowed_fin hP
      obtain ⟨m', hcm⟩ := hcounted r' i C hr' hi hcr
      obtain ⟨P', p1, p2, _, _, p5⟩ := hcomp r' i m' a' hr' hi hcm ha'
      rw [p1] at ePa
      obtain rfl : P' = P := by simpa using ePa
      have ham : |a'| ≤ m' := by
        rcases ha' with h1 | h1
        · exact hcm.re_le h1
        · exact hcm.im_le h1
      have hMr' := hM r' _ hr' hip
      have hb := le_trans ham (hK r' i m' hr' hi hcm)
      have hM0 : 0 < M r' (i % nPol) := by
        rcases hMr'.1.eq_or_lt with h0 | h0
        · exfalso
          rw [← h0, mul_zero] at hb
          have := p2 (abs_eq_zero.mp (le_antisymm hb (abs_nonneg _)))
          rw [this, abs_zero] at hPC
          exact hpos.ne hPC
        · exact h0
      have h5 := p5 _ hMr' hM0
      have hX : |a'| * (L / M r' (i % nPol)) ≤ K i * L := by
        rw [← mul_div_assoc, div_le_iff₀ hM0]
        calc |a'| * L ≤ K i * M r' (i % nPol) * L := mul_le_mul_of_nonneg_right hb hL.le
          _ = _ := by ring
      have t := abs_sub_abs_le_abs_sub P' (a' * (L / M r' (i % nPol)))
      rw [abs_mul a', abs_of_pos (div_pos hL hM0), hPC] at t
      rw [div_le_iff₀ hL]
      generalize |a'| * (L / M r' (i % nPol)) = X at *
      linarith
  -- the stored channel factor
  have hG : ∃ c G, Fl.cast Fl.r32 (Fl.div Fl.r64 (.fin 1) (chF Fl.r64 (.fin L) nR nPol nCh D i)) = .fin G ∧ 0 < c ∧ c ≤ K i * (1 + 1 / 2251799813685248) ∧
      |G - c| ≤ c * (1 / 16000000) + 2 ^ (-150 : ℤ) ∧ (0 < C → c = C / L) := by
    have hk1 := hK1 i hi
    rcases hC.1.eq_or_lt with h0 | hpos
    · have hK1' : K i = 1 := by
        rcases hK0 i hi with h1 | ⟨r', m', hr', hcm, hm0⟩
        · exact h1
        · exfalso
          obtain ⟨m'', hc'', hne⟩ := hkeep r' i m' hr' hi hcm
          have := hC.2.1 r' m'' hr' hc''
          rw [← h0] at this
          exact hne hm0 (le_antisymm this hc''.nonneg)
      refine ⟨1, 1, ?_, one_pos, by rw [hK1']; norm_num, ?_, fun h' => absurd h0 h'.ne⟩
      · unfold chF
        rw [eC, ← h0]
        have one : Fl.r64 1 = .fin 1 ∧ Fl.r32 1 = .fin 1 := by decide +kernel
        simp [chanFactor, Fl.eq, Fl.div, Fl.cast, one.1, one.2]
      · rw [sub_self, abs_zero]
        have := Fl.zp_pos (-150)
        linarith
    · have h1 := hCK hpos
      obtain ⟨G, eG, g⟩ := chan_meta hL hLr hL2 (by
        rcases hC0 with h0 | h0
        · exact absurd h0 hpos.ne'
        · exact h0) hC2 (by linarith)
      refine ⟨C / L, G, ?_, div_pos hpos hL, h1, g, fun _ => rfl⟩
      unfold chF
      rw [eC, eG]
  obtain ⟨c, G, eG, c0, cK, hGc, hcC⟩ := hG
  obtain ⟨m', hc', _⟩ := hkeep r i m hr hi hc
  have ha' : (D r i).re = .fin a ∨ (D r i).im = .fin a := by
    rcases hpart with rfl | rfl
    · exact Or.inl ha
    · exact Or.inr ha
  have ham : |a| ≤ m := by
    rcases ha' with h1 | h1
    · exact hc.re_le h1
    · exact hc.im_le h1
  have hpr : part (rowed Fl.r64 (.fin L) nPol nCh D r i) = Fl.mul Fl.r64 (.fin a) (Row.rowFactor Fl.r64 (.fin L)
      (pMax nPol nCh D r (i % nPol))) := by
    rcases hpart with rfl | rfl <;> simp only [rowed, Cx.scale] <;> rw [ha]
  obtain ⟨P, p1, p2, p3, p4, p5⟩ := hcomp r i m a hr hi hc ha'
  have hXm : |P| ≤ m' := by
    rw [p1] at hpr
    rcases hpart with rfl | rfl
    · exact hc'.re_le hpr
    · exact hc'.im_le hpr
  have hPC := le_trans hXm (hC.2.1 r m' hr hc')
  have hP0 : P = 0 ∨ 2 ^ (-427 : ℤ) ≤ |P| := by
    by_cases h0 : a = 0
    · exact Or.inl (p2 h0)
    · exact Or.inr (p3 h0)
  obtain ⟨x, x1, x2, _, x4⟩ := chan_stage hL hLr hL2 hP0 hPC hC0 hC2
  obtain ⟨F, eF, hFq⟩ := row_meta hL hL2 hM0 hrep hMq
  have hqL : M r (i % nPol) / L * L = M r (i % nPol) := div_mul_cancel₀ _ hL.ne'
  have hq0 : 0 < M r (i % nPol) / L := div_pos hM0 hL
  have hk1 := hK1 i hi
  refine ⟨x, c, P, M r (i % nPol) / L, ?_, x2, hqL, hq0, c0, cK, le_trans ham (hK r i m hr hi hc), ?_, ?_, ?_⟩
  · rw [hpr, p1]
    unfold chF
    rw [eC, x1]
  · have h5 := p5 _ hMr hM0
    have e5 : a * (L / M r (i % nPol)) * (M r (i % nPol) / L) = a := by field_simp
    have e6 : |a| * (L / M r (i % nPol)) * (M r (i % nPol) / L) = |a| := by field_simp
    calc |P * (M r (i % nPol) / L) - a|
        = |(P - a * (L / M r (i % nPol))) * (M r (i % nPol) / L)| := by rw [sub_mul, e5]
      _ = |P - a * (L / M r (i % nPol))| * (M r (i % nPol) / L) := by
          rw [abs_mul, abs_of_pos hq0]
      _ ≤ |a| * (L / M r (i % nPol)) * (1 / 2251799813685248) * (M r (i % nPol) / L) :=
          mul_le_mul_of_nonneg_right h5 hq0.le
      _ = |a| * (L / M r (i % nPol)) * (M r (i % nPol) / L) * (1 / 2251799813685248) := by ring
      _ = _ := by rw [e6]
  · rcases hC.1.eq_or_lt with h0 | hpos
    · have hPz : P = 0 := by
        rw [← h0] at hPC
        exact abs_eq_zero.mp (le_antisymm hPC (abs_nonneg P))
      have hxz : x = 0 := by
        rw [hPz, ← h0] at x1
        simp [chanFactor, Fl.eq, Fl.mul, Fl.r64_zero, Fl.cast, Fl.r32_zero] at x1
        exact x1.symm
      rw [hxz, hPz, zero_mul, sub_zero, abs_zero]
      positivity
    · have h4 := x4 hpos
      rw [hcC hpos]
      have hcp := div_pos hpos hL
      have e5 : P * (L / C) * (C / L) = P := by field_simp
      calc |x * (C / L) - P| = |(x - P * (L / C)) * (C / L)| := by rw [sub_mul, e5]
        _ = |x - P * (L / C)| * (C / L) := by rw [abs_mul, abs_of_pos hcp]
        _ ≤ (L * (1 / 16000000) + 2 ^ (-150 : ℤ)) * (C / L) :=
            mul_le_mul_of_nonneg_right h4 hcp.le
        _ = _ := by ring
  · intro lev hlev
    rw [eG, hpm, eF]
    exact decode_two hL hL2 hlev hM0 hMb hqL hq0 hMq c0 (by linarith) hFq hGc

end Dysco.RF

namespace Dysco.Layout
open BytePacker TimeBlock Stochastic Twister

variable {nR nPol nCh nAnt bits : Nat} {A : Nat → Nat × Nat} {D : Nat → Nat → Cx} {data : Block Cx}

/-- As `ReadBack`, with row-frequency normalisation. Not in the code. -/
def ReadBackRF (sq : Fl → Fl) (e : Encoder) (nR nPol nCh nAnt bits fuel : Nat) (A : Nat → Nat × Nat) (data : Block Cx)
    (packed : Mem 8) (unpacked out : Buf Nat) (dflt : DataRow Cx) (rows : Block Cx) (j r i : Nat)
    (part : Cx → Fl) (y : Nat → ℚ) : Prop :=
  ∀ dith : Nat → Nat, dith j < 2 ^ 31 → ∃ d x,
    writeBlock (encData .rf sq e nPol nCh nAnt dith fuel data) bits (nPol * (nCh + nR)) (symbolCount nR nPol nCh) packed
      unpacked = .ok d ∧
    readBlock (decData .rf e nPol nCh nAnt A) bits (nPol * (nCh + nR)) (symbolCount nR nPol nCh) nR dflt d out rows = .ok x ∧
    part ((x.get r).vis.get i) = .fin (y (dith j))

/-- **C142** A block is written with row-frequency normalisation and read back; `j` is the symbol of one part of one sample.
What is read for that part depends only on the dither value of `j`, and is within the larger of a step and the asymmetry of the
quantiser in units of the factors and the rounding. Its mean over all dither values is the value that was written, up to `2^-22` of the largest step of the quantiser in units of the factors and the rounding. The exception are
negative values beyond the lowest level, which are always read as that level. -/
theorem rf_mean (sq : Fl → Fl) {e : Encoder} {b l : Nat → ℚ} {L g : ℚ} (hT : Table e b l L) (hf : FloatLevels e.n l)
    (hg : Row.Gaps e.n l g) (hlo : -(5 / 4 * L) ≤ l 0) (hneg : l 0 + L * (1 / 16000000) + 2 ^ (-150 : ℤ) < 0)
    (hb : Supported bits) (hq : e.quantCount = 2 ^ bits)
    (h : Holds nR (nPol * nCh) A D data) (hF : ∀ r i, r < nR → i < nPol * nCh → FloatVis (D r i)) (fuel : Nat)
    {packed : Mem 8} {unpacked out : Buf Nat} (hp : packed.len = blockSize (nPol * (nCh + nR)) (symbolCount nR nPol nCh) bits)
    (hu : unpacked.len = symbolCount nR nPol nCh) (ho : out.len = symbolCount nR nPol nCh)
    (dflt : DataRow Cx) (rows : Block Cx)
    (M : Nat → Nat → ℚ) (hM : ∀ r p, r < nR → p < nPol → RF.RowPolMax nPol nCh D r p (M r p))
    (hM2 : ∀ r p, r < nR → p < nPol → M r p ≤ 2 ^ (127 : ℤ) ∧ M r p / L ≤ 2 ^ (127 : ℤ))
    (K : Nat → ℚ) (hK1 : ∀ i, i < nPol * nCh → K i ≤ 1)
    (hK : ∀ r i m, r < nR → i < nPol * nCh → Counted (D r i) m → m ≤ K i * M r (i % nPol))
    (hK0 : ∀ i, i < nPol * nCh → K i = 1 ∨ ∃ r m, r < nR ∧ Counted (D r i) m ∧ m ≠ 0)
    {r i : Nat} (hr : r < nR) (hi : i < nPol * nCh) {m a : ℚ} (hc : Counted (D r i) m) (hM0 : 0 < M r (i % nPol))
    {part : Cx → Fl} {j : Nat} (hpart : part = Cx.re ∧ j = (r * (nPol * nCh) + i) * 2 ∨
      part = Cx.im ∧ j = (r * (nPol * nCh) + i) * 2 + 1) (ha : part (D r i) = .fin a) :
    ∃ y, ReadBackRF sq e nR nPol nCh nAnt bits fuel A data packed unpacked out dflt rows j r i part y ∧
      (∀ m, m < 2 ^ 31 → |y m - a| ≤ RF.floatBound (max g (l 0 + L)) (K i) (M r (i % nPol)) L) ∧
      (|Row.mean y - a| ≤ RF.floatBound (g / 2 ^ 22) (K i) (M r (i % nPol)) L ∨
        a < 0 ∧ (∀ m, m < 2 ^ 31 → y m = y 0) ∧ |y 0 - a| ≤ RF.floatBound (l 0 + L) (K i) (M r (i % nPol)) L) := by
  have hlt := flat_lt hr hi
  have hL := hT.pos
  have hn := hT.levels.two
  have hp0 : 0 < nPol := Nat.pos_of_ne_zero (by rintro rfl; simp at hi)
  have hip := Nat.mod_lt i hp0
  have hj : j < symbolCount nR nPol nCh := by
    rw [symbolCount_eq]
    rcases hpart with ⟨-, rfl⟩ | ⟨-, rfl⟩ <;> omega
  have hLr : Fl.Repr Fl.binary32 L := by
    rw [← hT.top]
    exact (hf _ (by omega)).1
  obtain ⟨x, c, P, q, ex, x1, hqL, q0, c0, cK, haK, hPa, hxP, hdec⟩ := RF.component_parts hT hLr hF M hM hM2 K hK1 hK hK0 hr hi hc
    hM0 (hpart.imp And.left And.left) ha
  have blk := fun dith => rf_block (nAnt := nAnt) sq hT hb hq (by omega) h dith fuel hp hu ho dflt rows
  choose d z s b1 b2 b3 b4 b5 b6 b7 using blk
  have hs : ∀ dith, e.encodeDither Fl.r32 (.fin x) (dith j) = some (s dith j) := by
    intro dith
    rcases hpart with ⟨rfl, rfl⟩ | ⟨rfl, rfl⟩
    · have := (b6 dith r i hr hi).1
      rw [ex] at this
      simpa [encFn] using this
    · have := (b6 dith r i hr hi).2
      rw [ex] at this
      simpa [encFn] using this
  obtain ⟨v, v1, v2⟩ := Row.level_mean hT hf hg hlo (Fl.isFloat_cast _ x ex).1 x1 (s := fun m => s (fun _ => m) j)
    (fun m _ => hs fun _ => m) (fun m _ => by rw [hq]; exact (b3 _ _ hj).1)
  choose! y y1 y2 using fun m hm => hdec (v m) (v1 m hm).2.1
  have hread : ReadBackRF sq e nR nPol nCh nAnt bits fuel A data packed unpacked out dflt rows j r i part y := by
    intro dith hm
    refine ⟨d dith, z dith, b1 dith, b2 dith, ?_⟩
    have : s dith j = s (fun _ => dith j) j := Option.some.inj ((hs dith).symm.trans (hs fun _ => dith j))
    rw [b7 dith r i hr hi, b4 dith i hi, b5 dith r _ hr hip, ← y1 _ hm, ← (v1 _ hm).1, ← this]
    rcases hpart with ⟨rfl, rfl⟩ | ⟨rfl, rfl⟩ <;> rfl
  have hK1' := hK1 i hi
  have hl0 : l 0 < L := by
    have := StrictlyAscending.asc hT.levels.asc 0 (e.n - 1) (by omega) (by omega)
    rw [hT.top] at this
    exact lt_of_le_of_ne this fun h0 => by
      have h2 := Fl.zp_pos (-150)
      rw [h0] at hneg
      generalize (2 : ℚ) ^ (-150 : ℤ) = w at hneg h2
      linarith
  obtain ⟨xl, xu⟩ := abs_le.1 x1
  have hpt : ∀ m, m < 2 ^ 31 → |y m - a| ≤ RF.floatBound (max g (l 0 + L)) (K i) (M r (i % nPol)) L := by
    intro m hm
    have hg0 : 0 ≤ g := by
      have h1 := hg 0 (by omega)
      have h2 := StrictlyAscending.asc hT.levels.asc 0 1 (by omega) (by omega)
      linarith
    obtain ⟨s', z', q1, q2, q3⟩ := dither_accurate hT Fl.r32 (max g (l 0 + L)) (le_trans hg0 (le_max_left _ _)) (le_max_right _ _)
      (fun k hk => le_trans (hg k hk) (le_max_left _ _)) x m x1
    have h1 : s' = s (fun _ => m) j :=
      Option.some.inj ((show e.encodeDither Fl.r32 (.fin x) m = some s' by simpa [encFn] using q1).symm.trans (hs fun _ => m))
    rw [h1, hT.decode_some (by rw [hq]; exact (b3 _ _ hj).1)] at q2
    have h2 := (v1 m hm).1
    rw [Option.some.inj q2] at h2
    obtain rfl : z' = v m := Fl.fin.inj h2
    have hv3 := (v1 m hm).2.1
    have t := abs_sub (v m) x
    exact RF.component_two (x := x) (l := v m) (P := P) hL hM0 hqL q0 c0 hK1' cK haK hPa hxP q3 (by linarith) (y2 m hm)
  rcases v2 with hv | ⟨hx0, hv, hs0⟩
  · refine ⟨y, hread, hpt, Or.inl ?_⟩
    have hmean := Row.mean_sub_le y2
    refine RF.component_two (x := x) (l := Row.mean v) (P := P) hL hM0 hqL q0 c0 hK1' cK haK hPa hxP hv ?_ hmean
    have hv3 := Row.abs_mean_le fun m hm => (v1 m hm).2.1
    have t := abs_sub (Row.mean v) x
    linarith
  · have hv0 : ∀ m, m < 2 ^ 31 → v m = l 0 := by
      intro m hm
      have h1 := (v1 m hm).1
      have h2 := hT.levels.eq 0 (by omega)
      rw [hs0 m hm, h2] at h1
      exact (Fl.fin.inj h1).symm
    have z31 : 0 < 2 ^ 31 := by norm_num
    refine ⟨y, hread, hpt, Or.inr ⟨?_, fun m hm => ?_, ?_⟩⟩
    · by_contra hna
      have ha0 := not_lt.1 hna
      rw [abs_of_nonneg ha0] at hPa
      have hP0 : 0 ≤ P * q := by
        have := (abs_le.1 hPa).1
        linarith
      have hP : 0 ≤ P := nonneg_of_mul_nonneg_left hP0 q0
      have h1 := (abs_le.1 hxP).1
      have h2 : 0 ≤ c * (x + (L * (1 / 16000000) + 2 ^ (-150 : ℤ))) := by
        rw [mul_add]
        linarith [mul_comm x c]
      have h3 := nonneg_of_mul_nonneg_right h2 c0
      generalize (2 : ℚ) ^ (-150 : ℤ) = w at hneg h3
      linarith
    · have h1 := y1 m hm
      have h2 := y1 0 z31
      rw [hv0 m hm, ← hv0 0 z31, h2] at h1
      exact (Fl.fin.inj h1).symm
    · refine RF.component_two (x := x) (l := v 0) (P := P) hL hM0 hqL q0 c0 hK1' cK haK hPa hxP ?_ ?_ (y2 0 z31)
      · rw [hv0 0 z31, abs_of_nonneg (by linarith)]
        linarith
      · rw [hv0 0 z31, abs_of_nonneg (by linarith)]
        linarith

/-- **C142** for the quantisers that a data column makes, with the precision of C79, over all states of the generator of the
thread that writes the block; the thread made `k` dither values before. -/
theorem rf_mean_states (sq : Fl → Fl) {lib : Prepare.Lib} {dn : Tools.Distribution} (hco : End.Concrete lib dn bits)
    {fl : Nat} {e0 d0 : Nat → Fl} {e : Encoder} (he : Prepare.encoder lib fl dn bits e0 d0 = some e) (hb : Supported bits)
    (hρ : End.ratio dn ((2 ^ bits - 1 : Nat) : ℚ) ≤ 9 / 10)
    (h : Holds nR (nPol * nCh) A D data) (hF : ∀ r i, r < nR → i < nPol * nCh → FloatVis (D r i)) (fuel : Nat)
    {packed : Mem 8} {unpacked out : Buf Nat} (hp : packed.len = blockSize (nPol * (nCh + nR)) (symbolCount nR nPol nCh) bits)
    (hu : unpacked.len = symbolCount nR nPol nCh) (ho : out.len = symbolCount nR nPol nCh)
    (dflt : DataRow Cx) (rows : Block Cx)
    (M : Nat → Nat → ℚ) (hM : ∀ r p, r < nR → p < nPol → RF.RowPolMax nPol nCh D r p (M r p))
    (hM2 : ∀ r p, r < nR → p < nPol → M r p ≤ 2 ^ (127 : ℤ))
    (K : Nat → ℚ) (hK1 : ∀ i, i < nPol * nCh → K i ≤ 1)
    (hK : ∀ r i m, r < nR → i < nPol * nCh → Counted (D r i) m → m ≤ K i * M r (i % nPol))
    (hK0 : ∀ i, i < nPol * nCh → K i = 1 ∨ ∃ r m, r < nR ∧ Counted (D r i) m ∧ m ≠ 0)
    {r i : Nat} (hr : r < nR) (hi : i < nPol * nCh) {m a : ℚ} (hc : Counted (D r i) m) (hM0 : 0 < M r (i % nPol))
    {part : Cx → Fl} (hpart : part = Cx.re ∨ part = Cx.im) (ha : part (D r i) = .fin a)
    {sample : Word → Nat} (hs : Fair sample) (k : Nat) :
    ∃ Y : Gen → ℚ, (∀ s, ∃ d x,
      writeBlock (encData .rf sq e nPol nCh nAnt (fun n => sample (output s (k + n))) fuel data) bits (nPol * (nCh + nR))
        (symbolCount nR nPol nCh) packed unpacked = .ok d ∧
      readBlock (decData .rf e nPol nCh nAnt A) bits (nPol * (nCh + nR)) (symbolCount nR nPol nCh) nR dflt d out rows = .ok x ∧
      part ((x.get r).vis.get i) = .fin (Y s)) ∧
      (|stateMean Y - a| ≤ (End.ratio dn ((2 ^ bits - 1 : Nat) : ℚ) + 2) * K i * M r (i % nPol) / 2 ^ 22 +
          (2 * M r (i % nPol) + 17 / 2) * 2 ^ (-149 : ℤ) ∨
        a < 0 ∧ (∀ s s', Y s = Y s') ∧ ∀ s, |Y s - a| ≤ (End.ratio dn ((2 ^ bits - 1 : Nat) : ℚ) + 1 / 2 ^ 21) * K i *
          M r (i % nPol) + (2 * M r (i % nPol) + 17 / 2) * 2 ^ (-149 : ℤ)) := by
  have h16 : bits ≤ 16 := by
    rcases hb with h | h | h | h | h | h | h | h <;> omega
  have hbits : 2 ≤ bits := by
    rcases hb with h | h | h | h | h | h | h | h <;> omega
  obtain ⟨e', b, l, L, δ, t1, t2, t3, t4, t5⟩ := End.concrete_table hco h16 fl e0 d0
  obtain rfl : e' = e := Option.some.inj (t1.symm.trans he)
  have hq : 2 ^ 2 ≤ 2 ^ bits := Nat.pow_le_pow_right (by norm_num) hbits
  have hlv := t2.table.levels
  have hn2 := hlv.two
  have hLpos : (0 : ℚ) < L := by linarith
  have hfl : FloatLevels e'.n l := by
    intro i hi
    refine ⟨Prepare.level_repr (by omega) (Prepare.value_isFloat lib fl dn) t1 hlv hi, ?_⟩
    have h1 := StrictlyAscending.asc hlv.asc 0 i (by omega) hi
    have h2 := StrictlyAscending.asc hlv.asc i (e'.n - 1) (by omega) (by omega)
    rw [t2.table.top] at h2
    have h3 := t2.low
    rw [abs_le]
    constructor <;> norm_num <;> linarith
  have hδ : δ ≤ End.ratio dn ((2 ^ bits - 1 : Nat) : ℚ) * L := by rwa [div_le_iff₀ hLpos] at t3
  generalize End.ratio dn ((2 ^ bits - 1 : Nat) : ℚ) = ρ at *
  have hsym : l 0 + L ≤ δ := by
    have := t2.sym
    linarith
  have hneg : l 0 + L * (1 / 16000000) + 2 ^ (-150 : ℤ) < 0 := by
    have h1 : (2 : ℚ) ^ (-150 : ℤ) ≤ 1 / 100000000 := by norm_num
    generalize (2 : ℚ) ^ (-150 : ℤ) = z at h1 ⊢
    nlinarith
  have hML : ∀ r p, r < nR → p < nPol → M r p / L ≤ M r p := fun r p hr hp => div_le_self (hM r p hr hp).1 t4
  have hp0 : 0 < nPol := Nat.pos_of_ne_zero (by rintro rfl; simp at hi)
  have hip := Nat.mod_lt i hp0
  have hK' : 0 ≤ K i := by
    have := le_trans hc.nonneg (hK r i m hr hi hc)
    exact nonneg_of_mul_nonneg_left this hM0
  have hbd : ∀ ε : ℚ, ε ≤ ρ * L → 0 ≤ ε → ∀ w : ℚ, 0 < w → RF.floatBound (ε / w) (K i) (M r (i % nPol)) L ≤
      (ρ / w + 1 / 2 ^ 21) * K i * M r (i % nPol) + (2 * M r (i % nPol) + 17 / 2) * 2 ^ (-149 : ℤ) := by
    intro ε h1 h0 w hw
    have hML' := hML r _ hr hip
    have e1 : ε / w * K i * (M r (i % nPol) / L) ≤ ρ / w * K i * M r (i % nPol) := by
      have : ε / w * K i * (M r (i % nPol) / L) = ε / L * (K i * M r (i % nPol) / w) := by ring
      rw [this]
      have e2 : ρ / w * K i * M r (i % nPol) = ρ * (K i * M r (i % nPol) / w) := by ring
      rw [e2]
      exact mul_le_mul_of_nonneg_right ((div_le_iff₀ hLpos).2 h1) (div_nonneg (mul_nonneg hK' hM0.le) hw.le)
    have e3 : (M r (i % nPol) + M r (i % nPol) / L + 3 * L + 1) * 2 ^ (-149 : ℤ) ≤
        (2 * M r (i % nPol) + 17 / 2) * 2 ^ (-149 : ℤ) :=
      mul_le_mul_of_nonneg_right (by linarith) (Fl.zp_pos _).le
    have e4 : M r (i % nPol) * K i * 2 ^ (-21 : ℤ) = 1 / 2 ^ 21 * K i * M r (i % nPol) := by
      rw [show (2 : ℚ) ^ (-21 : ℤ) = 1 / 2 ^ 21 by norm_num]
      ring
    rw [RF.floatBound, e4, add_mul, add_mul]
    linarith
  obtain ⟨j, hj⟩ : ∃ j, part = Cx.re ∧ j = (r * (nPol * nCh) + i) * 2 ∨ part = Cx.im ∧ j = (r * (nPol * nCh) + i) * 2 + 1 := by
    rcases hpart with h | h
    · exact ⟨_, Or.inl ⟨h, rfl⟩⟩
    · exact ⟨_, Or.inr ⟨h, rfl⟩⟩
  obtain ⟨y, y1, -, y2⟩ := rf_mean (nAnt := nAnt) sq t2.table hfl (g := δ) t2.gap t2.low hneg hb t2.count h hF fuel hp hu ho dflt rows
    M hM (fun r p hr hp => ⟨hM2 r p hr hp, le_trans (hML r p hr hp) (hM2 r p hr hp)⟩) K hK1 hK hK0 hr hi hc hM0 hj ha
  refine ⟨fun s => y (sample (output s (k + j))), fun s => y1 (fun n => sample (output s (k + n))) (hs.1 _), ?_⟩
  have hδ0 : 0 ≤ δ := by
    have h1 := t2.gap 0 (by omega)
    have h2 := StrictlyAscending.asc hlv.asc 0 1 (by omega) (by omega)
    linarith
  rcases y2 with y2 | ⟨a0, y2, y3⟩
  · left
    rw [dither_uniform hs (k + j) y]
    refine le_trans y2 (le_trans (hbd δ hδ hδ0 (2 ^ 22) (by norm_num)) (le_of_eq ?_))
    ring
  · refine Or.inr ⟨a0, fun s s' => ?_, fun s => ?_⟩
    · show y _ = y _
      rw [y2 _ (hs.1 _), y2 _ (hs.1 (output s' (k + j)))]
    · show |y _ - a| ≤ _
      rw [y2 _ (hs.1 _)]
      refine le_trans y3 ?_
      have h1 := hbd δ hδ hδ0 1 one_pos
      rw [div_one, div_one] at h1
      refine le_trans ?_ h1
      unfold RF.floatBound
      have : (l 0 + L) * K i * (M r (i % nPol) / L) ≤ δ * K i * (M r (i % nPol) / L) :=
        mul_le_mul_of_nonneg_right (mul_le_mul_of_nonneg_right hsym hK') (div_pos hM0 hLpos).le
      linarith

/-- The imaginary part of one visibility `1 + i/4`, with the uniform quantiser of 8 bits, after 100 other dither values. -/
example (lib : Prepare.Lib) (e0 d0 : Nat → Fl) (packed : Mem 8) (hl : packed.len = 10) (dflt : DataRow Cx) (rows : Block Cx) :
    ∃ e, Prepare.encoder lib 5 .uniform 8 e0 d0 = some e ∧ ∃ Y : Gen → ℚ, (∀ s, ∃ d x,
      writeBlock (encData .rf id e 1 1 2 (fun n => ditherHigh (output s (100 + n))) 5
        ⟨1, fun _ => ⟨0, 1, ⟨1, fun _ => ⟨.fin 1, .fin (1 / 4)⟩⟩⟩⟩) 8 2 2 packed ⟨2, fun _ => 0⟩ = .ok d ∧
      readBlock (decData .rf e 1 1 2 fun _ => (0, 1)) 8 2 2 1 dflt d ⟨2, fun _ => 0⟩ rows = .ok x ∧
      ((x.get 0).vis.get 0).im = .fin (Y s)) ∧ |stateMean Y - 1 / 4| ≤ 1 / 2000000 := by
  have hc : Counted (⟨.fin 1, .fin (1 / 4)⟩ : Cx) 1 := ⟨1, rfl, Or.inl ⟨1 / 4, rfl, by norm_num⟩⟩
  have hM : RF.RowPolMax 1 1 (fun _ _ => (⟨.fin 1, .fin (1 / 4)⟩ : Cx)) 0 0 1 :=
    ⟨by norm_num, fun i m _ h => (hc.unique h).ge, Or.inr ⟨0, by decide, hc⟩⟩
  have hco : End.Concrete lib .uniform 8 := Or.inl ⟨rfl, by decide⟩
  obtain ⟨e, -, -, -, -, he, -⟩ := End.concrete_table hco (by decide) 5 e0 d0
  refine ⟨e, he, ?_⟩
  obtain ⟨Y, y1, y2⟩ := rf_mean_states (nAnt := 2) (nR := 1) (nPol := 1) (nCh := 1) (A := fun _ => (0, 1))
    (D := fun _ _ => ⟨.fin 1, .fin (1 / 4)⟩) (data := ⟨1, fun _ => ⟨0, 1, ⟨1, fun _ => ⟨.fin 1, .fin (1 / 4)⟩⟩⟩⟩) id hco he
    (by unfold Supported; decide) (by norm_num [End.ratio]) ⟨rfl, fun _ _ => rfl, fun _ _ => rfl, fun _ _ _ _ => rfl⟩
    (fun r i _ _ a ha => by
      rcases ha with ha | ha
      · obtain rfl := Fl.fin.inj ha
        exact ⟨⟨1, 0, by decide, by norm_num [Fl.binary32], by norm_num⟩, by norm_num⟩
      · obtain rfl := Fl.fin.inj ha
        exact ⟨⟨1, -2, by decide, by norm_num [Fl.binary32], by norm_num⟩, by norm_num⟩)
    5 hl (unpacked := ⟨2, fun _ => 0⟩) (out := ⟨2, fun _ => 0⟩) rfl rfl dflt rows (fun _ _ => 1)
    (fun r p hr hp => by
      obtain rfl : r = 0 := by omega
      obtain rfl : p = 0 := by omega
      exact hM)
    (fun _ _ _ _ => by norm_num) (fun _ => 1) (fun _ _ => le_rfl)
    (fun r i m _ _ h => by obtain rfl := hc.unique h; norm_num) (fun _ _ => Or.inl rfl) (r := 0) (i := 0) (by decide)
    (by decide) hc (a := 1 / 4) one_pos (Or.inr rfl) rfl fair_high 100
  refine ⟨Y, y1, ?_⟩
  rcases y2 with y2 | ⟨y2, -⟩
  · refine le_trans y2 ?_
    norm_num [End.ratio]
  · norm_num at y2

end Dysco.Layout
