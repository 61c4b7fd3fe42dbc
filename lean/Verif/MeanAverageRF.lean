import Verif.MeanAverage

/-!
# C146: averaging removes the error of dithering from row-frequency normalised data
-/

namespace Dysco.RF

theorem floatBound_nonneg {δ K M L : ℚ} (hδ : 0 ≤ δ) (hK : 0 ≤ K) (hM : 0 ≤ M) (hL : 0 < L) : 0 ≤ floatBound δ K M L := by
  have z21 := Fl.zp_pos (-21)
  have z149 := Fl.zp_pos (-149)
  unfold floatBound
  positivity

theorem floatBound_mono {δ δ' K K' M M' L : ℚ} (hδ : 0 ≤ δ) (hδ' : δ ≤ δ') (hK0 : 0 ≤ K) (hK : K ≤ K') (hM0 : 0 ≤ M) (hM : M ≤ M')
    (hL : 0 < L) : floatBound δ K M L ≤ floatBound δ' K' M' L := by
  unfold floatBound
  have hd : M / L ≤ M' / L := div_le_div_of_nonneg_right hM hL.le
  have h1 : δ * K * (M / L) ≤ δ' * K' * (M' / L) :=
    mul_le_mul (mul_le_mul hδ' hK hK0 (le_trans hδ hδ')) hd (div_nonneg hM0 hL.le)
      (mul_nonneg (le_trans hδ hδ') (le_trans hK0 hK))
  have h2 : M * K * (2 : ℚ) ^ (-21 : ℤ) ≤ M' * K' * 2 ^ (-21 : ℤ) :=
    mul_le_mul_of_nonneg_right (mul_le_mul hM hK hK0 (le_trans hM0 hM)) (Fl.zp_pos _).le
  have h3 : (M + M / L + 3 * L + 1) * (2 : ℚ) ^ (-149 : ℤ) ≤ (M' + M' / L + 3 * L + 1) * 2 ^ (-149 : ℤ) :=
    mul_le_mul_of_nonneg_right (by linarith) (Fl.zp_pos _).le
  exact add_le_add (add_le_add h1 h2) h3

/-- The bound with the step of the quantiser in units of its highest level. -/
theorem floatBound_ratio {ε ρ K M L w : ℚ} (hL1 : 1 ≤ L) (hL2 : L ≤ 5 / 2) (hK : 0 ≤ K) (hM : 0 ≤ M) (hε : ε ≤ ρ * L) (hw : 0 < w) :
    floatBound (ε / w) K M L ≤ (ρ / w + 1 / 2 ^ 21) * K * M + (2 * M + 17 / 2) * 2 ^ (-149 : ℤ) := by
  have hL : 0 < L := by linarith
  have hML : M / L ≤ M := div_le_self hM hL1
  have e1 : ε / w * K * (M / L) ≤ ρ / w * K * M := by
    have : ε / w * K * (M / L) = ε / L * (K * M / w) := by ring
    rw [this]
    have e2 : ρ / w * K * M = ρ * (K * M / w) := by ring
    rw [e2]
    exact mul_le_mul_of_nonneg_right ((div_le_iff₀ hL).2 hε) (div_nonneg (mul_nonneg hK hM) hw.le)
  have e3 : (M + M / L + 3 * L + 1) * (2 : ℚ) ^ (-149 : ℤ) ≤ (2 * M + 17 / 2) * 2 ^ (-149 : ℤ) :=
    mul_le_mul_of_nonneg_right (by linarith) (Fl.zp_pos _).le
  have e4 : M * K * (2 : ℚ) ^ (-21 : ℤ) = 1 / 2 ^ 21 * K * M := by
    rw [show (2 : ℚ) ^ (-21 : ℤ) = 1 / 2 ^ 21 by norm_num]
    ring
  rw [floatBound, e4, add_mul, add_mul]
  linarith

end Dysco.RF

namespace Dysco.Layout
open BytePacker TimeBlock Stochastic Twister

variable {nR nPol nCh nAnt bits : Nat} {A : Nat → Nat × Nat} {D : Nat → Nat → Cx} {data : Block Cx}

/-- `j` is the symbol of one part of the sample `i` of row `r`; the sample counts and the part is the number `a`. Not in the
code. -/
structure SymbolOf (nR nPol nCh : Nat) (D : Nat → Nat → Cx) (j r i : Nat) (part : Cx → Fl) (a : ℚ) : Prop where
  row : r < nR
  sample : i < nPol * nCh
  counted : ∃ m, Counted (D r i) m
  symbol : part = Cx.re ∧ j = (r * (nPol * nCh) + i) * 2 ∨ part = Cx.im ∧ j = (r * (nPol * nCh) + i) * 2 + 1
  value : part (D r i) = .fin a

/-- **C146** A block is written with row-frequency normalisation by a thread that made `k` dither values before, and read back.
`J` are symbols less than 623 apart, `Kb` and `Mb` bound the factors of their channels and the maxima of their rows. The average
of their errors has, over all states of the generator, a mean square of at most the square of the bound of C142 on the mean and
the square of the bound on one value divided by their number. Negative values beyond the lowest level, `C`, which are always read
as the same number, add their share of the bound on one value to the mean. -/
theorem rf_average (sq : Fl → Fl) {e : Encoder} {b l : Nat → ℚ} {L g : ℚ} (hT : Table e b l L) (hf : FloatLevels e.n l)
    (hg : Row.Gaps e.n l g) (hlo : -(5 / 4 * L) ≤ l 0) (hneg : l 0 + L * (1 / 16000000) + 2 ^ (-150 : ℤ) < 0)
    (hb : Supported bits) (hq : e.quantCount = 2 ^ bits)
    (h : Holds nR (nPol * nCh) A D data) (hF : ∀ r i, r < nR → i < nPol * nCh → FloatVis (D r i)) (fuel : Nat)
    {packed : Mem 8} {unpacked out : Buf Nat} (hp : packed.len = blockSize (nPol * (nCh + nR)) (symbolCount nR nPol nCh) bits)
    (hu : unpacked.len = symbolCount nR nPol nCh) (ho : out.len = symbolCount nR nPol nCh)
    (dflt : DataRow Cx) (rows : Block Cx)
    (M : Nat → Nat → ℚ) (hM : ∀ r p, r < nR → p < nPol → RF.RowPolMax nPol nCh D r p (M r p))
    (hM2 : ∀ r p, r < nR → p < nPol → M r p ≤ 2 ^ (127 : ℤ) ∧ M r p / L ≤ 2 ^ (127 : ℤ))
    (K : Nat → ℚ) (hK1 : ∀ i, i < nPol * nCh → K i ≤ 1)
    (hK : ∀ r i m, r < nR → i < nPol * nCh → Counted (D r i) m → m ≤ K i * M r (i % nPol))
    (hK0 : ∀ i, i < nPol * nCh → K i = 1 ∨ ∃ r m, r < nR ∧ Counted (D r i) m ∧ m ≠ 0)
    {J : Finset Nat} {w : Nat} (hJ : ∀ j ∈ J, w ≤ j ∧ j < w + 623) (hne : J.Nonempty)
    {r i : Nat → Nat} {part : Nat → Cx → Fl} {a : Nat → ℚ} (hP : ∀ j ∈ J, SymbolOf nR nPol nCh D j (r j) (i j) (part j) (a j))
    {Kb Mb : ℚ} (hB : ∀ j ∈ J, K (i j) ≤ Kb ∧ 0 < M (r j) (i j % nPol) ∧ M (r j) (i j % nPol) ≤ Mb)
    {sample : Word → Nat} (hs : Fair sample) (k : Nat) :
    ∃ (Y : Nat → Gen → ℚ) (C : Finset Nat), C ⊆ J ∧ (∀ j ∈ C, a j < 0 ∧ ∀ s s', Y j s = Y j s') ∧
      (∀ s, ∃ d x,
        writeBlock (encData .rf sq e nPol nCh nAnt (fun n => sample (output s (k + n))) fuel data) bits (nPol * (nCh + nR))
          (symbolCount nR nPol nCh) packed unpacked = .ok d ∧
        readBlock (decData .rf e nPol nCh nAnt A) bits (nPol * (nCh + nR)) (symbolCount nR nPol nCh) nR dflt d out rows = .ok x ∧
        ∀ j ∈ J, part j ((x.get (r j)).vis.get (i j)) = .fin (Y j s)) ∧
      stateMean (fun s => ((∑ j ∈ J, (Y j s - a j)) / J.card) ^ 2) ≤
        (RF.floatBound (g / 2 ^ 22) Kb Mb L + C.card / J.card * RF.floatBound (max g (l 0 + L)) Kb Mb L) ^ 2 +
          RF.floatBound (max g (l 0 + L)) Kb Mb L ^ 2 / J.card := by
  have hn2 := hT.levels.two
  have hL := hT.pos
  have hg0 : 0 ≤ g := by
    have h1 := hg 0 (by omega)
    have h2 := StrictlyAscending.asc hT.levels.asc 0 1 (by omega) (by omega)
    linarith
  have hg22 : 0 ≤ g / 2 ^ 22 := by positivity
  have hKn : ∀ j ∈ J, 0 ≤ K (i j) := by
    intro j hj
    obtain ⟨m, hc⟩ := (hP j hj).counted
    exact nonneg_of_mul_nonneg_left (le_trans hc.nonneg (hK _ _ m (hP j hj).row (hP j hj).sample hc)) (hB j hj).2.1
  have key : ∀ j, ∃ y, j ∈ J →
      ReadBackRF sq e nR nPol nCh nAnt bits fuel A data packed unpacked out dflt rows j (r j) (i j) (part j) y ∧
      (∀ m, m < 2 ^ 31 → |y m - a j| ≤ RF.floatBound (max g (l 0 + L)) Kb Mb L) ∧
      (|Row.mean y - a j| ≤ RF.floatBound (g / 2 ^ 22) Kb Mb L ∨ a j < 0 ∧ ∀ m, m < 2 ^ 31 → y m = y 0) := by
    intro j
    by_cases hj : j ∈ J
    · obtain ⟨h1, h2, ⟨m, h3⟩, h4, h5⟩ := hP j hj
      obtain ⟨b1, b2, b3⟩ := hB j hj
      obtain ⟨y, y1, y2, y3⟩ := rf_mean (nAnt := nAnt) sq hT hf hg hlo hneg hb hq h hF fuel hp hu ho dflt rows M hM hM2 K hK1 hK hK0
        h1 h2 h3 b2 h4 h5
      exact ⟨y, fun _ => ⟨y1, fun m hm => le_trans (y2 m hm)
          (RF.floatBound_mono (le_trans hg0 (le_max_left _ _)) le_rfl (hKn j hj) b1 b2.le b3 hL),
        y3.imp (fun h => le_trans h (RF.floatBound_mono hg22 le_rfl (hKn j hj) b1 b2.le b3 hL)) (fun h => ⟨h.1, h.2.1⟩)⟩⟩
    · exact ⟨fun _ => 0, fun h => absurd h hj⟩
  choose y hy using key
  classical
  have hβ : 0 ≤ RF.floatBound (g / 2 ^ 22) Kb Mb L := by
    obtain ⟨j, hj⟩ := hne
    obtain ⟨b1, b2, b3⟩ := hB j hj
    exact RF.floatBound_nonneg hg22 (le_trans (hKn j hj) b1) (le_trans b2.le b3) hL
  refine ⟨fun j s => y j (sample (output s (k + j))),
    J.filter fun j => ¬ |Row.mean (y j) - a j| ≤ RF.floatBound (g / 2 ^ 22) Kb Mb L, Finset.filter_subset _ _, ?_, ?_, ?_⟩
  · intro j hj
    obtain ⟨hj, h1⟩ := Finset.mem_filter.1 hj
    obtain ⟨a0, h2⟩ := (hy j hj).2.2.resolve_left h1
    exact ⟨a0, fun s s' => (h2 _ (hs.1 _)).trans (h2 _ (hs.1 _)).symm⟩
  · intro s
    obtain ⟨j0, hj0⟩ := hne
    obtain ⟨d, x, w1, w2, -⟩ := (hy j0 hj0).1 (fun n => sample (output s (k + n))) (hs.1 _)
    refine ⟨d, x, w1, w2, fun j hj => ?_⟩
    obtain ⟨d', x', w1', w2', w3'⟩ := (hy j hj).1 (fun n => sample (output s (k + n))) (hs.1 _)
    obtain rfl : d = d' := Res.ok.inj (w1.symm.trans w1')
    obtain rfl : x = x' := Res.ok.inj (w2.symm.trans w2')
    exact w3'
  · refine average_error_except hs k w hJ hne (Finset.filter_subset _ _) hβ (fun j hj hn => ?_) (fun j hj => (hy j hj).2.1)
    by_contra hc
    exact hn (Finset.mem_filter.2 ⟨hj, hc⟩)

/-- **C146** for the quantisers that a data column makes, with the precision of C79. -/
theorem prepared_rf_average (sq : Fl → Fl) {lib : Prepare.Lib} {dn : Tools.Distribution} (hco : End.Concrete lib dn bits)
    {fl : Nat} {e0 d0 : Nat → Fl} {e : Encoder} (he : Prepare.encoder lib fl dn bits e0 d0 = some e) (hb : Supported bits)
    (hρ : End.ratio dn ((2 ^ bits - 1 : Nat) : ℚ) ≤ 9 / 10)
    (h : Holds nR (nPol * nCh) A D data) (hF : ∀ r i, r < nR → i < nPol * nCh → FloatVis (D r i)) (fuel : Nat)
    {packed : Mem 8} {unpacked out : Buf Nat} (hp : packed.len = blockSize (nPol * (nCh + nR)) (symbolCount nR nPol nCh) bits)
    (hu : unpacked.len = symbolCount nR nPol nCh) (ho : out.len = symbolCount nR nPol nCh)
    (dflt : DataRow Cx) (rows : Block Cx)
    (M : Nat → Nat → ℚ) (hM : ∀ r p, r < nR → p < nPol → RF.RowPolMax nPol nCh D r p (M r p))
    (hM2 : ∀ r p, r < nR → p < nPol → M r p ≤ 2 ^ (127 : ℤ))
    (K : Nat → ℚ) (hK1 : ∀ i, i < nPol * nCh → K i ≤ 1)
    (hK : ∀ r i m, r < nR → i < nPol * nCh → Counted (D r i) m → m ≤ K i * M r (i % nPol))
    (hK0 : ∀ i, i < nPol * nCh → K i = 1 ∨ ∃ r m, r < nR ∧ Counted (D r i) m ∧ m ≠ 0)
    {J : Finset Nat} {w : Nat} (hJ : ∀ j ∈ J, w ≤ j ∧ j < w + 623) (hne : J.Nonempty)
    {r i : Nat → Nat} {part : Nat → Cx → Fl} {a : Nat → ℚ} (hP : ∀ j ∈ J, SymbolOf nR nPol nCh D j (r j) (i j) (part j) (a j))
    {Kb Mb : ℚ} (hB : ∀ j ∈ J, K (i j) ≤ Kb ∧ 0 < M (r j) (i j % nPol) ∧ M (r j) (i j % nPol) ≤ Mb)
    {sample : Word → Nat} (hs : Fair sample) (k : Nat) :
    ∃ (Y : Nat → Gen → ℚ) (C : Finset Nat), C ⊆ J ∧ (∀ j ∈ C, a j < 0 ∧ ∀ s s', Y j s = Y j s') ∧
      (∀ s, ∃ d x,
        writeBlock (encData .rf sq e nPol nCh nAnt (fun n => sample (output s (k + n))) fuel data) bits (nPol * (nCh + nR))
          (symbolCount nR nPol nCh) packed unpacked = .ok d ∧
        readBlock (decData .rf e nPol nCh nAnt A) bits (nPol * (nCh + nR)) (symbolCount nR nPol nCh) nR dflt d out rows = .ok x ∧
        ∀ j ∈ J, part j ((x.get (r j)).vis.get (i j)) = .fin (Y j s)) ∧
      stateMean (fun s => ((∑ j ∈ J, (Y j s - a j)) / J.card) ^ 2) ≤
        ((End.ratio dn ((2 ^ bits - 1 : Nat) : ℚ) + 2) * Kb * Mb / 2 ^ 22 + (2 * Mb + 17 / 2) * 2 ^ (-149 : ℤ) +
          C.card / J.card * ((End.ratio dn ((2 ^ bits - 1 : Nat) : ℚ) + 1 / 2 ^ 21) * Kb * Mb +
            (2 * Mb + 17 / 2) * 2 ^ (-149 : ℤ))) ^ 2 +
        ((End.ratio dn ((2 ^ bits - 1 : Nat) : ℚ) + 1 / 2 ^ 21) * Kb * Mb + (2 * Mb + 17 / 2) * 2 ^ (-149 : ℤ)) ^ 2 / J.card := by
  obtain ⟨b, l, L, δ, c1, c2, c3, c4, c5, c6, c7, c8, c9, c10, c11, c12⟩ := concrete_levels hco he hb (by linarith)
  generalize End.ratio dn ((2 ^ bits - 1 : Nat) : ℚ) = ρ at *
  have hL := c1.pos
  have hneg : l 0 + L * (1 / 16000000) + 2 ^ (-150 : ℤ) < 0 := by
    have h1 : (2 : ℚ) ^ (-150 : ℤ) ≤ 1 / 100000000 := by norm_num
    generalize (2 : ℚ) ^ (-150 : ℤ) = z at h1 ⊢
    nlinarith
  have hML : ∀ r p, r < nR → p < nPol → M r p / L ≤ M r p := fun r p hr hp => div_le_self (hM r p hr hp).1 c11
  obtain ⟨Y, C, y1, y2, y3, y4⟩ := rf_average (nAnt := nAnt) sq c1 c2 c3 c4 hneg hb c6 h hF fuel hp hu ho dflt rows M hM
    (fun r p hr hp => ⟨hM2 r p hr hp, le_trans (hML r p hr hp) (hM2 r p hr hp)⟩) K hK1 hK hK0 hJ hne hP hB hs k
  refine ⟨Y, C, y1, y2, y3, le_trans y4 ?_⟩
  rw [max_eq_left c9]
  obtain ⟨hKb, hMb⟩ : 0 ≤ Kb ∧ 0 ≤ Mb := by
    obtain ⟨j, hj⟩ := hne
    obtain ⟨b1, b2, b3⟩ := hB j hj
    obtain ⟨m, hc⟩ := (hP j hj).counted
    exact ⟨le_trans (nonneg_of_mul_nonneg_left (le_trans hc.nonneg (hK _ _ m (hP j hj).row (hP j hj).sample hc)) b2) b1,
      le_trans b2.le b3⟩
  have e1 : 0 ≤ RF.floatBound (δ / 2 ^ 22) Kb Mb L := RF.floatBound_nonneg (by positivity) hKb hMb hL
  have e2 : 0 ≤ RF.floatBound δ Kb Mb L := RF.floatBound_nonneg c7 hKb hMb hL
  have e3 := RF.floatBound_ratio c11 c10 hKb hMb c12 (w := 2 ^ 22) (by norm_num)
  have e4 := RF.floatBound_ratio c11 c10 hKb hMb c12 (w := 1) one_pos
  rw [div_one, div_one] at e4
  have e5 : (ρ / 2 ^ 22 + 1 / 2 ^ 21) * Kb * Mb = (ρ + 2) * Kb * Mb / 2 ^ 22 := by ring
  rw [e5] at e3
  have q : (0 : ℚ) ≤ C.card / J.card := by positivity
  refine add_le_add (pow_le_pow_left₀ (add_nonneg e1 (mul_nonneg q e2)) (add_le_add e3 (mul_le_mul_of_nonneg_left e4 q)) 2) ?_
  exact div_le_div_of_nonneg_right (pow_le_pow_left₀ e2 e4 2) (Nat.cast_nonneg _)

/-- A row of 50 visibilities `1 + i/4`, with the uniform quantiser of 8 bits, after 100 other dither values: the mean square error
of the average of the 50 imaginary parts is below 1/350000. -/
example (lib : Prepare.Lib) (e0 d0 : Nat → Fl) (packed : Mem 8) (hl : packed.len = 304) (dflt : DataRow Cx) (rows : Block Cx) :
    ∃ e, Prepare.encoder lib 5 .uniform 8 e0 d0 = some e ∧ ∃ Y : Nat → Gen → ℚ, (∀ s, ∃ d x,
      writeBlock (encData .rf id e 1 50 2 (fun n => ditherHigh (output s (100 + n))) 5
        ⟨1, fun _ => ⟨0, 1, ⟨50, fun _ => ⟨.fin 1, .fin (1 / 4)⟩⟩⟩⟩) 8 51 100 packed ⟨100, fun _ => 0⟩ = .ok d ∧
      readBlock (decData .rf e 1 50 2 fun _ => (0, 1)) 8 51 100 1 dflt d ⟨100, fun _ => 0⟩ rows = .ok x ∧
      ∀ i, i < 50 → ((x.get 0).vis.get i).im = .fin (Y i s)) ∧
      stateMean (fun s => ((∑ i ∈ Finset.range 50, (Y i s - 1 / 4)) / 50) ^ 2) ≤ 1 / 350000 := by
  have hc : Counted (⟨.fin 1, .fin (1 / 4)⟩ : Cx) 1 := ⟨1, rfl, Or.inl ⟨1 / 4, rfl, by norm_num⟩⟩
  have hM : RF.RowPolMax 1 50 (fun _ _ => (⟨.fin 1, .fin (1 / 4)⟩ : Cx)) 0 0 1 :=
    ⟨by norm_num, fun i m _ h => (hc.unique h).ge, Or.inr ⟨0, by decide, hc⟩⟩
  have hco : End.Concrete lib .uniform 8 := Or.inl ⟨rfl, by decide⟩
  obtain ⟨e, -, -, -, -, he, -⟩ := End.concrete_table hco (by decide) 5 e0 d0
  refine ⟨e, he, ?_⟩
  have hinj : Function.Injective fun i : Nat => 2 * i + 1 := fun a b h => by
    simp only at h
    omega
  have hmem : ∀ j, j ∈ (Finset.range 50).image (fun i => 2 * i + 1) → ∃ i, i < 50 ∧ j = 2 * i + 1 := fun j hj => by
    obtain ⟨i, h1, h2⟩ := Finset.mem_image.1 hj
    exact ⟨i, Finset.mem_range.1 h1, h2.symm⟩
  obtain ⟨Y, C, y0, y1, y2, y3⟩ := prepared_rf_average (nAnt := 2) (nR := 1) (nPol := 1) (nCh := 50) (A := fun _ => (0, 1))
    (D := fun _ _ => ⟨.fin 1, .fin (1 / 4)⟩) (data := ⟨1, fun _ => ⟨0, 1, ⟨50, fun _ => ⟨.fin 1, .fin (1 / 4)⟩⟩⟩⟩) id hco he
    (by unfold Supported; decide) (by norm_num [End.ratio]) ⟨rfl, fun _ _ => rfl, fun _ _ => rfl, fun _ _ _ _ => rfl⟩
    (fun r i _ _ a ha => by
      rcases ha with ha | ha
      · obtain rfl := Fl.fin.inj ha
        exact ⟨⟨1, 0, by decide, by norm_num [Fl.binary32], by norm_num⟩, by norm_num⟩
      · obtain rfl := Fl.fin.inj ha
        exact ⟨⟨1, -2, by decide, by norm_num [Fl.binary32], by norm_num⟩, by norm_num⟩)
    5 hl (unpacked := ⟨100, fun _ => 0⟩) (out := ⟨100, fun _ => 0⟩) rfl rfl dflt rows (fun _ _ => 1)
    (fun r p hr hp => by
      obtain rfl : r = 0 := by omega
      obtain rfl : p = 0 := by omega
      exact hM)
    (fun _ _ _ _ => by norm_num) (fun _ => 1) (fun _ _ => le_rfl)
    (fun r i m _ _ h => by obtain rfl := hc.unique h; norm_num) (fun _ _ => Or.inl rfl)
    (J := (Finset.range 50).image fun i => 2 * i + 1) (w := 0)
    (fun j hj => by obtain ⟨i, h1, rfl⟩ := hmem j hj; omega) ⟨1, Finset.mem_image.2 ⟨0, by decide, rfl⟩⟩
    (r := fun _ => 0) (i := fun j => j / 2) (part := fun _ => Cx.im) (a := fun _ => 1 / 4)
    (fun j hj => by
      obtain ⟨i, h1, rfl⟩ := hmem j hj
      exact ⟨by decide, by omega, ⟨1, hc⟩, Or.inr ⟨rfl, by omega⟩, rfl⟩)
    (Kb := 1) (Mb := 1) (fun _ _ => ⟨le_rfl, one_pos, le_rfl⟩) fair_high 100
  have hC : C = ∅ := Finset.eq_empty_of_forall_notMem fun j hj => by
    have h1 := (y1 j hj).1
    norm_num at h1
  subst hC
  refine ⟨fun i => Y (2 * i + 1), fun s => ?_, ?_⟩
  · obtain ⟨d, x, w1, w2, w3⟩ := y2 s
    refine ⟨d, x, w1, w2, fun i hi => ?_⟩
    have := w3 (2 * i + 1) (Finset.mem_image.2 ⟨i, Finset.mem_range.2 hi, rfl⟩)
    rwa [show (2 * i + 1) / 2 = i by omega] at this
  · rw [Finset.card_image_of_injective _ hinj, Finset.card_range] at y3
    have e : ∀ s, ∑ j ∈ (Finset.range 50).image (fun i => 2 * i + 1), (Y j s - 1 / 4) =
        ∑ i ∈ Finset.range 50, (Y (2 * i + 1) s - 1 / 4) := fun s => Finset.sum_image fun _ _ _ _ h => hinj h
    simp only [e] at y3
    refine le_trans y3 ?_
    norm_num [End.ratio]

end Dysco.Layout
