import Verif.MeanSquare
import Verif.MeanAF

/-!
# C145: averaging removes the error of dithering from antenna-frequency normalised data
-/

namespace Dysco.AF

theorem meanBound_mono {g L G G' a a' : ℚ} {N : Nat} (hg : 0 ≤ g) (hL : 0 ≤ L) (hG : G ≤ G') (ha : |a| ≤ |a'|) :
    meanBound g L G a N ≤ meanBound g L G' a' N := by
  unfold meanBound
  have h1 : g / 2 ^ 22 * G ≤ g / 2 ^ 22 * G' := mul_le_mul_of_nonneg_left hG (by positivity)
  have h2 : L * G ≤ L * G' := mul_le_mul_of_nonneg_left hG hL
  have h3 : |a| * (((N : ℚ) + 6) * (1 / 12000000)) ≤ |a'| * ((N + 6) * (1 / 12000000)) :=
    mul_le_mul_of_nonneg_right ha (by positivity)
  have h4 : (1 + G) * (2 : ℚ) ^ (-148 : ℤ) ≤ (1 + G') * 2 ^ (-148 : ℤ) :=
    mul_le_mul_of_nonneg_right (by linarith) (Fl.zp_pos _).le
  linarith

theorem afBound_mono {δ G G' a a' : ℚ} {N : Nat} (hδ : 0 ≤ δ) (hG : G ≤ G') (ha : |a| ≤ |a'|) :
    afBound δ G a N ≤ afBound δ G' a' N := by
  unfold afBound
  have h1 : δ * G * (1 + 1 / 8000000) ≤ δ * G' * (1 + 1 / 8000000) :=
    mul_le_mul_of_nonneg_right (mul_le_mul_of_nonneg_left hG hδ) (by norm_num)
  have h3 : |a| * (((N : ℚ) + 6) * (1 / 12000000)) ≤ |a'| * ((N + 6) * (1 / 12000000)) :=
    mul_le_mul_of_nonneg_right ha (by positivity)
  have h4 : (1 + G) * (2 : ℚ) ^ (-149 : ℤ) ≤ (1 + G') * 2 ^ (-149 : ℤ) :=
    mul_le_mul_of_nonneg_right (by linarith) (Fl.zp_pos _).le
  linarith

end Dysco.AF

namespace Dysco.Layout
open BytePacker TimeBlock Stochastic Twister

variable {nR nPol nCh nAnt bits : Nat} {A : Nat → Nat × Nat} {D : Nat → Nat → Cx} {data : Block Cx}

/-- `j` is the symbol of one part of the sample of row `r`, channel `c` and polarisation `p`; the row is a cross-correlation, the
sample counts, the part is the number `a`, and the product of its stored factors is `G`. Not in the code. -/
structure PartAt (nR nPol nCh nAnt : Nat) (A : Nat → Nat × Nat) (D : Nat → Nat → Cx) (fs : Buf Fl) (L : ℚ) (j r c p : Nat)
    (part : Cx → Fl) (G a : ℚ) : Prop where
  row : r < nR
  cross : (A r).1 ≠ (A r).2
  chan : c < nCh
  pol : p < nPol
  counted : ∃ m, Counted (D r (c * nPol + p)) m
  factors : End.Factors fs L nPol nCh nAnt c p (A r) G
  symbol : part = Cx.re ∧ j = (r * (nPol * nCh) + (c * nPol + p)) * 2 ∨
    part = Cx.im ∧ j = (r * (nPol * nCh) + (c * nPol + p)) * 2 + 1
  value : part (D r (c * nPol + p)) = .fin a

/-- **C145** A block of moderate data is written with antenna-frequency normalisation by a thread that made `k` dither values
before, and read back. `J` are symbols less than 623 apart, `G` and `a` bound their factors and their values. The average of
their errors has, over all states of the generator, a mean square of at most the square of the bound of C143 on the mean and the
square of the bound of C83 on one value divided by their number. Negative values beyond the lowest level, `C`, which are always
read as the same number, add their share of the bound of C83 to the mean. -/
theorem af_average {sq : Fl → Fl} (hsq : AF.SqrtMono sq) {e : Encoder} {b l : Nat → ℚ} {L g : ℚ} (hT : Table e b l L)
    (hf : FloatLevels e.n l) (hg : Row.Gaps e.n l g) (hlo : -(5 / 4 * L) ≤ l 0) (hneg : l 0 < 0)
    (hb : Supported bits) (hq : e.quantCount = 2 ^ bits) (hc0 : 0 < nCh) (hR : 0 < nR)
    (h : Holds nR (nPol * nCh) A D data) (hF : AF.FloatBlock nR (nPol * nCh) D)
    (hA : AF.AntennasBelow nR nAnt A) (hn : nAnt ≤ 2 ^ 14) (hrows : nR ≤ 2 ^ 24) (hsize : nR * nCh ≤ 2 ^ 24)
    (hM : AF.Moderate nR (nPol * nCh) A D)
    {packed : Mem 8} {unpacked out : Buf Nat} (hp : packed.len = blockSize (nPol * (nCh + nAnt)) (symbolCount nR nPol nCh) bits)
    (hu : unpacked.len = symbolCount nR nPol nCh) (ho : out.len = symbolCount nR nPol nCh)
    (dflt : DataRow Cx) (rows : Block Cx) {sample : Word → Nat} (hs : Fair sample) (k : Nat) :
    ∃ (N : Nat) (fs : Buf Fl),
      (∀ dith fuel, N ≤ fuel ↔ ∃ d, writeBlock (encData .af sq e nPol nCh nAnt dith fuel data) bits (nPol * (nCh + nAnt))
        (symbolCount nR nPol nCh) packed unpacked = .ok d) ∧
      (∀ dith fuel d, writeBlock (encData .af sq e nPol nCh nAnt dith fuel data) bits (nPol * (nCh + nAnt))
        (symbolCount nR nPol nCh) packed unpacked = .ok d →
        ∀ k, k < nPol * (nCh + nAnt) → (metaView (nPol * (nCh + nAnt)) d).get k = fs.get k) ∧
      (N ≤ 2000000 → ∀ (J : Finset Nat) (w : Nat) (r c p : Nat → Nat) (part : Nat → Cx → Fl) (Gs as : Nat → ℚ) (G a : ℚ),
        J.Nonempty → (∀ j ∈ J, w ≤ j ∧ j < w + 623) →
        (∀ j ∈ J, PartAt nR nPol nCh nAnt A D fs L j (r j) (c j) (p j) (part j) (Gs j) (as j)) →
        (∀ j ∈ J, Gs j ≤ G ∧ |as j| ≤ |a|) →
        ∃ (Y : Nat → Gen → ℚ) (C : Finset Nat), C ⊆ J ∧ (∀ j ∈ C, as j < 0 ∧ ∀ s s', Y j s = Y j s') ∧
          (∀ s fuel, N ≤ fuel → ∃ d x,
            writeBlock (encData .af sq e nPol nCh nAnt (fun n => sample (output s (k + n))) fuel data) bits (nPol * (nCh + nAnt))
              (symbolCount nR nPol nCh) packed unpacked = .ok d ∧
            readBlock (decData .af e nPol nCh nAnt A) bits (nPol * (nCh + nAnt)) (symbolCount nR nPol nCh) nR dflt d out rows =
              .ok x ∧
            ∀ j ∈ J, part j ((x.get (r j)).vis.get (c j * nPol + p j)) = .fin (Y j s)) ∧
          stateMean (fun s => ((∑ j ∈ J, (Y j s - as j)) / J.card) ^ 2) ≤
            (AF.meanBound g L G a N + C.card / J.card * AF.afBound (max g (l 0 + L)) G a N) ^ 2 +
              AF.afBound (max g (l 0 + L)) G a N ^ 2 / J.card) := by
  obtain ⟨N, fs, g1, g2, g3⟩ := af_mean hsq hT hf hg hlo hneg hb hq hc0 hR h hF hA hn hrows hsize hM hp hu ho dflt rows
  refine ⟨N, fs, g1, g2, ?_⟩
  intro hN J w r c p part Gs as G a hne hJ hP hB
  have hn2 := hT.levels.two
  have hg0 : 0 ≤ g := by
    have h1 := hg 0 (by omega)
    have h2 := StrictlyAscending.asc hT.levels.asc 0 1 (by omega) (by omega)
    linarith
  have key : ∀ j, ∃ y, j ∈ J →
      ReadBackAF sq e nR nPol nCh nAnt bits N A data packed unpacked out dflt rows j (r j) (c j * nPol + p j) (part j) y ∧
      (∀ m, m < 2 ^ 31 → |y m - as j| ≤ AF.afBound (max g (l 0 + L)) G a N) ∧
      (|Row.mean y - as j| ≤ AF.meanBound g L G a N ∨ as j < 0 ∧ ∀ m, m < 2 ^ 31 → y m = y 0) := by
    intro j
    by_cases hj : j ∈ J
    · obtain ⟨h1, h2, h3, h4, ⟨m, h5⟩, h6, h7, h8⟩ := hP j hj
      obtain ⟨b1, b2⟩ := hB j hj
      obtain ⟨y, y1, y2, y3⟩ := g3 hN (r j) (c j) (p j) m (Gs j) (as j) h1 h2 h3 h4 h5 h6 (part j) j h7 h8
      exact ⟨y, fun _ => ⟨y1, fun m hm => le_trans (y2 m hm) (AF.afBound_mono (le_trans hg0 (le_max_left _ _)) b1 b2),
        y3.imp (fun h => le_trans h (AF.meanBound_mono hg0 hT.pos.le b1 b2)) (fun h => ⟨h.1, h.2.1⟩)⟩⟩
    · exact ⟨fun _ => 0, fun h => absurd h hj⟩
  choose y hy using key
  classical
  have hβ : 0 ≤ AF.meanBound g L G a N := by
    obtain ⟨j, hj⟩ := hne
    have hG := lt_of_lt_of_le (hP j hj).factors.pos (hB j hj).1
    have hL := hT.pos
    unfold AF.meanBound
    positivity
  refine ⟨fun j s => y j (sample (output s (k + j))),
    J.filter fun j => ¬ |Row.mean (y j) - as j| ≤ AF.meanBound g L G a N, Finset.filter_subset _ _, ?_, ?_, ?_⟩
  · intro j hj
    obtain ⟨hj, h1⟩ := Finset.mem_filter.1 hj
    obtain ⟨a0, h2⟩ := (hy j hj).2.2.resolve_left h1
    exact ⟨a0, fun s s' => (h2 _ (hs.1 _)).trans (h2 _ (hs.1 _)).symm⟩
  · intro s fuel hfuel
    obtain ⟨j0, hj0⟩ := hne
    obtain ⟨d, x, w1, w2, -⟩ := (hy j0 hj0).1 (fun n => sample (output s (k + n))) (hs.1 _) fuel hfuel
    refine ⟨d, x, w1, w2, fun j hj => ?_⟩
    obtain ⟨d', x', w1', w2', w3'⟩ := (hy j hj).1 (fun n => sample (output s (k + n))) (hs.1 _) fuel hfuel
    obtain rfl : d = d' := Res.ok.inj (w1.symm.trans w1')
    obtain rfl : x = x' := Res.ok.inj (w2.symm.trans w2')
    exact w3'
  · refine average_error_except hs k w hJ hne (Finset.filter_subset _ _) hβ (fun j hj hn => ?_) (fun j hj => (hy j hj).2.1)
    by_contra hc
    exact hn (Finset.mem_filter.2 ⟨hj, hc⟩)

/-- The quantisers that a data column makes, as in C79. -/
theorem concrete_levels {lib : Prepare.Lib} {dn : Tools.Distribution} (hco : End.Concrete lib dn bits) {fl : Nat}
    {e0 d0 : Nat → Fl} {e : Encoder} (he : Prepare.encoder lib fl dn bits e0 d0 = some e) (hb : Supported bits)
    (hρ : End.ratio dn ((2 ^ bits - 1 : Nat) : ℚ) < 1) :
    ∃ b l L δ, Table e b l L ∧ FloatLevels e.n l ∧ Row.Gaps e.n l δ ∧ -(5 / 4 * L) ≤ l 0 ∧ l 0 < 0 ∧ e.quantCount = 2 ^ bits ∧
      0 ≤ δ ∧ δ ≤ 5 / 2 * End.ratio dn ((2 ^ bits - 1 : Nat) : ℚ) ∧ l 0 + L ≤ δ ∧ L ≤ 5 / 2 ∧
      1 ≤ L ∧ δ ≤ End.ratio dn ((2 ^ bits - 1 : Nat) : ℚ) * L := by
  have h16 : bits ≤ 16 := by
    rcases hb with h | h | h | h | h | h | h | h <;> omega
  have hbits : 2 ≤ bits := by
    rcases hb with h | h | h | h | h | h | h | h <;> omega
  obtain ⟨e', b, l, L, δ, t1, t2, t3, t4, t5⟩ := End.concrete_table hco h16 fl e0 d0
  obtain rfl : e' = e := Option.some.inj (t1.symm.trans he)
  have hq : 2 ^ 2 ≤ 2 ^ bits := Nat.pow_le_pow_right (by norm_num) hbits
  have hlv := t2.table.levels
  have hn2 := hlv.two
  have hLpos : (0 : ℚ) < L := by linarith
  have hδ0 : 0 ≤ δ := by
    have h1 := t2.gap 0 (by omega)
    have h2 := StrictlyAscending.asc hlv.asc 0 1 (by omega) (by omega)
    linarith
  have hδ : δ ≤ End.ratio dn ((2 ^ bits - 1 : Nat) : ℚ) * L := by rwa [div_le_iff₀ hLpos] at t3
  refine ⟨b, l, L, δ, t2.table, ?_, t2.gap, t2.low, ?_, t2.count, hδ0, ?_, t2.sym, t5, t4, hδ⟩
  · intro i hi
    refine ⟨Prepare.level_repr (by omega) (Prepare.value_isFloat lib fl dn) t1 hlv hi, ?_⟩
    have h1 := StrictlyAscending.asc hlv.asc 0 i (by omega) hi
    have h2 := StrictlyAscending.asc hlv.asc i (e'.n - 1) (by omega) (by omega)
    rw [t2.table.top] at h2
    have h3 := t2.low
    rw [abs_le]
    constructor <;> norm_num <;> linarith
  · have := t2.sym
    nlinarith
  · have hρ0 := End.ratio_nonneg dn ((2 ^ bits - 1 : Nat) : ℚ) (Nat.cast_nonneg _)
    nlinarith

/-- **C145** for the quantisers that a data column makes, with the precision of C79. -/
theorem prepared_af_average {sq : Fl → Fl} (hsq : AF.SqrtMono sq) {lib : Prepare.Lib} {dn : Tools.Distribution}
    (hco : End.Concrete lib dn bits) {fl : Nat} {e0 d0 : Nat → Fl} {e : Encoder}
    (he : Prepare.encoder lib fl dn bits e0 d0 = some e) (hb : Supported bits)
    (hρ : End.ratio dn ((2 ^ bits - 1 : Nat) : ℚ) < 1) (hc0 : 0 < nCh) (hR : 0 < nR)
    (h : Holds nR (nPol * nCh) A D data) (hF : AF.FloatBlock nR (nPol * nCh) D)
    (hA : AF.AntennasBelow nR nAnt A) (hn : nAnt ≤ 2 ^ 14) (hrows : nR ≤ 2 ^ 24) (hsize : nR * nCh ≤ 2 ^ 24)
    (hM : AF.Moderate nR (nPol * nCh) A D)
    {packed : Mem 8} {unpacked out : Buf Nat} (hp : packed.len = blockSize (nPol * (nCh + nAnt)) (symbolCount nR nPol nCh) bits)
    (hu : unpacked.len = symbolCount nR nPol nCh) (ho : out.len = symbolCount nR nPol nCh)
    (dflt : DataRow Cx) (rows : Block Cx) {sample : Word → Nat} (hs : Fair sample) (k : Nat) :
    ∃ (N : Nat) (fs : Buf Fl),
      (∀ dith fuel, N ≤ fuel ↔ ∃ d, writeBlock (encData .af sq e nPol nCh nAnt dith fuel data) bits (nPol * (nCh + nAnt))
        (symbolCount nR nPol nCh) packed unpacked = .ok d) ∧
      (∀ dith fuel d, writeBlock (encData .af sq e nPol nCh nAnt dith fuel data) bits (nPol * (nCh + nAnt))
        (symbolCount nR nPol nCh) packed unpacked = .ok d →
        ∀ k, k < nPol * (nCh + nAnt) → (metaView (nPol * (nCh + nAnt)) d).get k = fs.get k) ∧
      (N ≤ 2000000 → ∀ (J : Finset Nat) (w : Nat) (r c p : Nat → Nat) (part : Nat → Cx → Fl) (Gs as : Nat → ℚ) (G a : ℚ),
        J.Nonempty → (∀ j ∈ J, w ≤ j ∧ j < w + 623) →
        (∀ j ∈ J, PartAt nR nPol nCh nAnt A D fs (5 / 2) j (r j) (c j) (p j) (part j) (Gs j) (as j)) →
        (∀ j ∈ J, Gs j ≤ G ∧ |as j| ≤ |a|) →
        ∃ (Y : Nat → Gen → ℚ) (C : Finset Nat), C ⊆ J ∧ (∀ j ∈ C, as j < 0 ∧ ∀ s s', Y j s = Y j s') ∧
          (∀ s fuel, N ≤ fuel → ∃ d x,
            writeBlock (encData .af sq e nPol nCh nAnt (fun n => sample (output s (k + n))) fuel data) bits (nPol * (nCh + nAnt))
              (symbolCount nR nPol nCh) packed unpacked = .ok d ∧
            readBlock (decData .af e nPol nCh nAnt A) bits (nPol * (nCh + nAnt)) (symbolCount nR nPol nCh) nR dflt d out rows =
              .ok x ∧
            ∀ j ∈ J, part j ((x.get (r j)).vis.get (c j * nPol + p j)) = .fin (Y j s)) ∧
          stateMean (fun s => ((∑ j ∈ J, (Y j s - as j)) / J.card) ^ 2) ≤
            (AF.meanBound (5 / 2 * End.ratio dn ((2 ^ bits - 1 : Nat) : ℚ)) (5 / 2) G a N +
              C.card / J.card * AF.afBound (5 / 2 * End.ratio dn ((2 ^ bits - 1 : Nat) : ℚ)) G a N) ^ 2 +
              AF.afBound (5 / 2 * End.ratio dn ((2 ^ bits - 1 : Nat) : ℚ)) G a N ^ 2 / J.card) := by
  obtain ⟨b, l, L, δ, c1, c2, c3, c4, c5, c6, c7, c8, c9, c10, -, -⟩ := concrete_levels hco he hb hρ
  obtain ⟨N, fs, g1, g2, g3⟩ := af_average hsq c1 c2 c3 c4 c5 hb c6 hc0 hR h hF hA hn hrows hsize hM hp hu ho dflt rows hs k
  refine ⟨N, fs, g1, g2, fun hN J w r c p part Gs as G a hne hJ hP hB => ?_⟩
  obtain ⟨Y, C, y1, y2, y3, y4⟩ := g3 hN J w r c p part Gs as G a hne hJ (fun j hj => by
    obtain ⟨h1, h2, h3, h4, h5, h6, h7, h8⟩ := hP j hj
    refine ⟨h1, h2, h3, h4, h5, ?_, h7, h8⟩
    have hpos := h6.pos
    obtain ⟨q0, q1, q2, w0, w1, w2, w3, w4, w5, w6, w7⟩ := h6
    exact ⟨q0, q1, q2, w0, w1, w2, w3, w4, w5, w6, le_trans (mul_le_mul_of_nonneg_right c10 hpos.le) w7⟩) hB
  refine ⟨Y, C, y1, y2, y3, le_trans y4 ?_⟩
  rw [max_eq_left c9]
  generalize End.ratio dn ((2 ^ bits - 1 : Nat) : ℚ) = ρ at *
  have hG : 0 < G := by
    obtain ⟨j, hj⟩ := hne
    exact lt_of_lt_of_le (hP j hj).factors.pos (hB j hj).1
  have hL := c1.pos
  have z148 := Fl.zp_pos (-148)
  have z149 := Fl.zp_pos (-149)
  have e1 : 0 ≤ AF.meanBound δ L G a N := by
    unfold AF.meanBound
    positivity
  have e2 : 0 ≤ AF.afBound δ G a N := by
    unfold AF.afBound
    positivity
  have e3 : AF.meanBound δ L G a N ≤ AF.meanBound (5 / 2 * ρ) (5 / 2) G a N := by
    unfold AF.meanBound
    have h1 : δ / 2 ^ 22 * G ≤ 5 / 2 * ρ / 2 ^ 22 * G :=
      mul_le_mul_of_nonneg_right (div_le_div_of_nonneg_right c8 (by norm_num)) hG.le
    have h2 : L * G ≤ 5 / 2 * G := mul_le_mul_of_nonneg_right c10 hG.le
    linarith
  have e4 : AF.afBound δ G a N ≤ AF.afBound (5 / 2 * ρ) G a N := by
    unfold AF.afBound
    have h1 : δ * G * (1 + 1 / 8000000) ≤ 5 / 2 * ρ * G * (1 + 1 / 8000000) :=
      mul_le_mul_of_nonneg_right (mul_le_mul_of_nonneg_right c8 hG.le) (by norm_num)
    linarith
  have q : (0 : ℚ) ≤ C.card / J.card := by positivity
  refine add_le_add (pow_le_pow_left₀ (add_nonneg e1 (mul_nonneg q e2)) (add_le_add e3 (mul_le_mul_of_nonneg_left e4 q)) 2) ?_
  exact div_le_div_of_nonneg_right (pow_le_pow_left₀ e2 e4 2) (Nat.cast_nonneg _)

/-- The real parts 3 and 0 of the two samples of the first row of the block of C143: both are the parts of samples that count,
and as they are not negative the mean square error of their average is that of one value divided by two. -/
example (packed : Mem 8) (hl : packed.len = blockSize 4 8 2) (dflt : DataRow Cx) (rows : Block Cx) :
    ∃ Y : Nat → Gen → ℚ, (∀ s, ∃ d x,
      writeBlock (encData .af AF.coarseSqrt Row.smallTable 1 2 2 (fun n => ditherHigh (output s (100 + n))) 1
        ⟨2, fun r => ⟨0, 1, ⟨2, AF.moderateVis r⟩⟩⟩) 2 4 8 packed ⟨8, fun _ => 0⟩ = .ok d ∧
      readBlock (decData .af Row.smallTable 1 2 2 fun _ => (0, 1)) 2 4 8 2 dflt d ⟨8, fun _ => 0⟩ rows = .ok x ∧
      ((x.get 0).vis.get 0).re = .fin (Y 0 s) ∧ ((x.get 0).vis.get 1).re = .fin (Y 2 s)) ∧
      stateMean (fun s => ((Y 0 s - 3 + (Y 2 s - 0)) / 2) ^ 2) ≤
        AF.meanBound 1 1 4096 3 1 ^ 2 + AF.afBound 1 4096 3 1 ^ 2 / 2 := by
  obtain ⟨N, fs, g1, g2, g3⟩ := af_average (nAnt := 2) (bits := 2) (A := fun _ => (0, 1)) (g := 1) AF.coarseSqrt_mono
    Row.smallTable_ok example_levels (fun k _ => by push_cast; linarith) (by norm_num) (by norm_num) (Or.inl rfl) rfl (by decide)
    (by decide) example_holds example_floats example_antennas (by decide) (by decide) (by decide) example_moderate hl
    (unpacked := ⟨8, fun _ => 0⟩) (out := ⟨8, fun _ => 0⟩) rfl rfl dflt rows fair_high 100
  obtain ⟨hN, hfs⟩ := example_fit hl g1 g2
  have z := Fl.zp_pos (-126)
  have hG : ∀ c, c < 2 → ∃ G, G < 4096 ∧ End.Factors fs 1 1 2 2 c 0 (0, 1) G := by
    intro c hc
    obtain ⟨q0, w0, v0, u0⟩ := hfs c (by omega)
    obtain ⟨q1, w1, v1, u1⟩ := hfs 2 (by decide)
    obtain ⟨q2, w2, v2, u2⟩ := hfs 3 (by decide)
    have p0 := lt_of_lt_of_le z v0
    have p1 := lt_of_lt_of_le z v1
    have p2 := lt_of_lt_of_le z v2
    have hG : q0 * (q1 * q2) < 4096 := by
      have h1 : q1 * q2 < 16 * 16 := mul_lt_mul'' u1 u2 p1.le p2.le
      have h2 : q0 * (q1 * q2) < 16 * (16 * 16) := mul_lt_mul'' u0 h1 p0.le (mul_pos p1 p2).le
      linarith
    exact ⟨q0 * (q1 * q2), hG, q0, q1, q2, by simpa using w0, v0, w1, v1, w2, v2, rfl, by
      rw [one_mul]
      exact hG.le.trans (by norm_num)⟩
  obtain ⟨G0, G0', F0⟩ := hG 0 (by decide)
  obtain ⟨G1, G1', F1⟩ := hG 1 (by decide)
  obtain ⟨Y, C, y1, y2, y3, y4⟩ := g3 (by omega) {0, 2} 0 (fun _ => 0) (fun j => j / 2) (fun _ => 0) (fun _ => Cx.re)
    (fun j => if j = 0 then G0 else G1) (fun j => if j = 0 then 3 else 0) 4096 3 (by simp)
    (fun j hj => by
      simp only [Finset.mem_insert, Finset.mem_singleton] at hj
      omega)
    (fun j hj => by
      simp only [Finset.mem_insert, Finset.mem_singleton] at hj
      rcases hj with rfl | rfl
      · exact ⟨by decide, by decide, by decide, by decide, ⟨4, 3, rfl, Or.inl ⟨-4, rfl, by norm_num⟩⟩, F0, Or.inl ⟨rfl, rfl⟩, rfl⟩
      · exact ⟨by decide, by decide, by decide, by decide, ⟨1 / 1024, 0, rfl, Or.inl ⟨1 / 1024, rfl, by norm_num⟩⟩, F1,
          Or.inl ⟨rfl, rfl⟩, rfl⟩)
    (fun j hj => by
      simp only [Finset.mem_insert, Finset.mem_singleton] at hj
      rcases hj with rfl | rfl
      · exact ⟨G0'.le, le_rfl⟩
      · exact ⟨G1'.le, by norm_num⟩)
  refine ⟨Y, fun s => ?_, ?_⟩
  · obtain ⟨d, x, w1, w2, w3⟩ := y3 s 1 hN
    exact ⟨d, x, w1, w2, w3 0 (by simp), w3 2 (by simp)⟩
  · have hC : C = ∅ := Finset.eq_empty_of_forall_notMem fun j hj => by
      have h1 := (y2 j hj).1
      split at h1 <;> norm_num at h1
    subst hC
    have hcard : ({0, 2} : Finset Nat).card = 2 := by decide
    rw [hcard] at y4
    have e : ∀ s, ∑ j ∈ ({0, 2} : Finset Nat), (Y j s - if j = 0 then 3 else 0) = Y 0 s - 3 + (Y 2 s - 0) := fun s => by
      rw [Finset.sum_pair (by decide)]
      simp
    simp only [e] at y4
    rw [Finset.card_empty, Nat.cast_zero, zero_div, zero_mul, add_zero, max_eq_left (by norm_num)] at y4
    refine le_trans y4 ?_
    have hNq : (N : ℚ) ≤ 1 := by exact_mod_cast hN
    have b1 : AF.meanBound 1 1 4096 3 N ≤ AF.meanBound 1 1 4096 3 1 := by
      unfold AF.meanBound
      push_cast
      have : |(3 : ℚ)| = 3 := by norm_num
      rw [this]
      linarith
    have b2 : AF.afBound 1 4096 3 N ≤ AF.afBound 1 4096 3 1 := by
      unfold AF.afBound
      push_cast
      have : |(3 : ℚ)| = 3 := by norm_num
      rw [this]
      linarith
    have b3 : 0 ≤ AF.meanBound 1 1 4096 3 N := by
      unfold AF.meanBound
      positivity
    have b4 : 0 ≤ AF.afBound 1 4096 3 N := by
      unfold AF.afBound
      positivity
    refine add_le_add (pow_le_pow_left₀ b3 b1 2) ?_
    push_cast
    exact div_le_div_of_nonneg_right (pow_le_pow_left₀ b4 b2 2) (by norm_num)

end Dysco.Layout
