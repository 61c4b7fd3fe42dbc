import Verif.Power
import Verif.DitherFloat

/-!
# C140: dithering makes what is read back from a block unbiased

The mean of a value that is read back from a row-normalised block, over all dither values of its part of the sample, is the
value that was written, up to rounding; the dither values of the others do not matter. The error of a single read is up to
a step of the quantiser; the mean is closer by a factor of `2^22`.
-/

namespace Dysco.Row
open Stochastic

/-- The mean over the dither values. Not in the code. -/
def mean (y : Nat → ℚ) : ℚ := (∑ m ∈ Finset.range (2 ^ 31), y m) / 2 ^ 31

/-- Values that are close one by one have close means. -/
theorem mean_sub_le {y z : Nat → ℚ} {c t : ℚ} (h : ∀ m, m < 2 ^ 31 → |y m - z m * c| ≤ t) : |mean y - mean z * c| ≤ t := by
  have hN : (0 : ℚ) < 2 ^ 31 := by norm_num
  have e : mean y - mean z * c = (∑ m ∈ Finset.range (2 ^ 31), (y m - z m * c)) / 2 ^ 31 := by
    unfold mean
    rw [Finset.sum_sub_distrib, ← Finset.sum_mul, sub_div, div_mul_eq_mul_div]
  rw [e, abs_div, abs_of_pos hN, div_le_iff₀ hN]
  refine le_trans (Finset.abs_sum_le_sum_abs _ _) ?_
  refine le_trans (Finset.sum_le_sum fun m hm => h m (Finset.mem_range.1 hm)) ?_
  rw [Finset.sum_const, Finset.card_range, nsmul_eq_mul, mul_comm]
  push_cast
  exact le_rfl

/-- The largest distance of neighbouring levels is at most `g`. Not in the code. -/
def Gaps (n : Nat) (l : Nat → ℚ) (g : ℚ) : Prop := ∀ k, k + 1 < n → l (k + 1) - l k ≤ g

/-- One component: `y m` is what is read with the dither value `m`. -/
theorem component_mean {e : Encoder} {b l : Nat → ℚ} {a M L g : ℚ} (hT : Table e b l L) (hf : FloatLevels e.n l)
    (hg : Gaps e.n l g) (hlo : -(5 / 4 * L) ≤ l 0) (ha : Fl.Repr Fl.binary32 a) (haM : |a| ≤ M)
    (hMr : Fl.Repr Fl.binary32 M) (hM2 : M ≤ 2 ^ (127 : ℤ)) (hML : M / L ≤ 2 ^ (127 : ℤ))
    (hin : (l 0 + L * (1 / 16000000) + 2 ^ (-150 : ℤ)) * M < a * L) {s : Nat → Nat}
    (hs : ∀ m, m < 2 ^ 31 → e.encodeDither Fl.r32 (Fl.cast Fl.r32 (Fl.mul Fl.r64 (.fin a) (rowFactor Fl.r64 (.fin L) (.fin M)))) m =
      some (s m)) (hq : ∀ m, m < 2 ^ 31 → s m < e.quantCount) :
    ∃ y : Nat → ℚ, (∀ m, m < 2 ^ 31 → Fl.cast Fl.r32 (Fl.mul Fl.r64 (e.level (s m))
        (Fl.cast Fl.r32 (Fl.div Fl.r64 (.fin M) (.fin L)))) = .fin (y m)) ∧
      |mean y - a| ≤ floatBound (g / 2 ^ 22) M L := by
  have hL := hT.pos
  have hn := hT.levels.two
  have hL2 : L < 2 ^ (128 : ℤ) := lt_of_le_of_lt hT.le fltMax_lt
  have hM3 : M < 2 ^ (128 : ℤ) := lt_of_le_of_lt hM2 (by norm_num)
  have hLr : Fl.Repr Fl.binary32 L := by
    rw [← hT.top]
    exact (hf _ (by omega)).1
  have hM : 0 < M := by
    rcases (le_trans (abs_nonneg a) haM).eq_or_lt with h0 | h0
    · have ha0 : a = 0 := abs_eq_zero.mp (le_antisymm (by rw [h0]; exact haM) (abs_nonneg a))
      rw [← h0, ha0] at hin
      simp at hin
    · exact h0
  obtain ⟨x, ex, x1, x2, -, -⟩ := component_real hL hLr hL2 ha haM hMr hM3
  have hx := x2 hM
  have hq0 : 0 < M / L := div_pos hM hL
  have hlx : l 0 < x := by
    have h1 : l 0 + L * (1 / 16000000) + 2 ^ (-150 : ℤ) < a * (L / M) := by
      rw [← mul_div_assoc a, lt_div_iff₀ hM]
      exact hin
    have h2 := (abs_le.1 hx).1
    linarith
  have hxr : Fl.Repr Fl.binary32 x := (Fl.isFloat_cast _ x ex).1
  obtain ⟨k, k1, -, -, k4⟩ := dither_mean_float hT.levels hf x hxr hlx (by rw [hT.top]; exact (abs_le.1 x1).2)
  have hlev : ∀ m, m < 2 ^ 31 → ∃ v : ℚ, e.level (s m) = .fin v ∧ |v| ≤ 5 / 4 * L ∧
      Stochastic.valueOf ((e.encodeDither Fl.r32 (.fin x) m).bind e.decode) = v := by
    intro m hm
    have h1 := hs m hm
    rw [ex] at h1
    have hd := hT.decode_some (hq m hm)
    have hsn : s m < e.n := by
      obtain ⟨s', g1, g2, -⟩ := dither_neighbour hT.levels Fl.r32 x m
      rw [g1] at h1
      rw [← Option.some.inj h1]
      exact g2
    have h2 := hT.levels.eq _ hsn
    refine ⟨l (s m), h2, level_le hT hlo _ _ (hd.trans (by rw [h2])), ?_⟩
    rw [h1]
    simp only [Option.bind_some, hd, h2, Stochastic.valueOf]
  choose! v v1 v2 v3 using hlev
  have hy : ∀ m, m < 2 ^ 31 → ∃ y, Fl.cast Fl.r32 (Fl.mul Fl.r64 (e.level (s m))
      (Fl.cast Fl.r32 (Fl.div Fl.r64 (.fin M) (.fin L)))) = .fin y ∧
      |y - v m * (M / L)| ≤ M * (1 / 6000000) + (L + 1) * 2 ^ (-149 : ℤ) := by
    intro m hm
    rw [v1 m hm]
    exact decode_component hL hL2 (v2 m hm) hM hMr hM2 hML
  choose! y y1 y2 using hy
  refine ⟨y, y1, ?_⟩
  have t0 := mean_sub_le y2
  have tv : |mean v - x| ≤ g / 2 ^ 22 := by
    have : mean v = (∑ m ∈ Finset.range (2 ^ 31), Stochastic.valueOf ((e.encodeDither Fl.r32 (.fin x) m).bind e.decode)) / 2 ^ 31 := by
      unfold mean
      rw [Finset.sum_congr rfl fun m hm => (v3 m (Finset.mem_range.1 hm)).symm]
    rw [this]
    exact le_trans k4 (div_le_div_of_nonneg_right (hg k k1) (by norm_num))
  have hδ : 0 ≤ g / 2 ^ 22 := le_trans (abs_nonneg _) tv
  generalize g / 2 ^ 22 = δ at *
  generalize mean y = Y at *
  generalize mean v = V at *
  have hqL : M / L * L = M := div_mul_cancel₀ M hL.ne'
  have haq : a * (L / M) * (M / L) = a := by field_simp
  have t1 := abs_add_le (Y - V * (M / L)) (V * (M / L) - a)
  rw [sub_add_sub_cancel] at t1
  have t2 : |V * (M / L) - a| ≤ (δ + (L * (1 / 16000000) + 2 ^ (-150 : ℤ))) * (M / L) := by
    have : V * (M / L) - a = (V - a * (L / M)) * (M / L) := by rw [sub_mul, haq]
    rw [this, abs_mul, abs_of_pos hq0]
    apply mul_le_mul_of_nonneg_right _ hq0.le
    have t := abs_add_le (V - x) (x - a * (L / M))
    rw [sub_add_sub_cancel] at t
    linarith
  have t3 : (δ + (L * (1 / 16000000) + 2 ^ (-150 : ℤ))) * (M / L) =
      δ * (M / L) + M * (1 / 16000000) + M / L * 2 ^ (-150 : ℤ) := by
    calc _ = δ * (M / L) + M / L * L * (1 / 16000000) + M / L * 2 ^ (-150 : ℤ) := by ring
      _ = _ := by rw [hqL]
  have e149 : (2 : ℚ) ^ (-149 : ℤ) = 2 ^ (-150 : ℤ) * 2 := by norm_num
  have e22 : (2 : ℚ) ^ (-22 : ℤ) = 1 / 4194304 := by norm_num
  have hu0 := Fl.zp_pos (-150)
  have hqu : 0 < M / L * 2 ^ (-150 : ℤ) := mul_pos hq0 hu0
  unfold floatBound
  rw [e149, e22]
  rw [e149] at t0
  have e1 : (M / L + L + 1) * (2 ^ (-150 : ℤ) * 2) =
      2 * (M / L * 2 ^ (-150 : ℤ)) + (L + 1) * (2 ^ (-150 : ℤ) * 2) := by ring
  rw [e1]
  clear hM3 hL2 hM2 hML
  generalize (L + 1) * ((2 : ℚ) ^ (-150 : ℤ) * 2) = v at *
  generalize M / L * (2 : ℚ) ^ (-150 : ℤ) = u at *
  linarith

end Dysco.Row

namespace Dysco.Layout
open BytePacker TimeBlock Stochastic

variable {nR nPol nCh nAnt bits : Nat} {A : Nat → Nat × Nat} {D : Nat → Nat → Cx} {data : Block Cx}

/-- `part` of sample `i` of row `r` is read back as `y m`, where `m` is the dither value of its symbol `j`; the dither values
of the others do not matter. Not in the code. -/
def ReadBack (sq : Fl → Fl) (e : Encoder) (nR nPol nCh nAnt bits fuel : Nat) (A : Nat → Nat × Nat) (data : Block Cx)
    (packed : Mem 8) (unpacked out : Buf Nat) (dflt : DataRow Cx) (rows : Block Cx) (j r i : Nat)
    (part : Cx → Fl) (y : Nat → ℚ) : Prop :=
  ∀ dith : Nat → Nat, dith j < 2 ^ 31 → ∃ d x,
    writeBlock (encData .row sq e nPol nCh nAnt dith fuel data) bits nR (symbolCount nR nPol nCh) packed unpacked = .ok d ∧
    readBlock (decData .row e nPol nCh nAnt A) bits nR (symbolCount nR nPol nCh) nR dflt d out rows = .ok x ∧
    part ((x.get r).vis.get i) = .fin (y (dith j))

/-- **C140** A block is written with row normalisation and read back. What is read for one part of one sample depends only on
the dither value of its own symbol, and the mean over all dither values is the value that was written, up to `2^-22` of the
largest step of the quantiser in units of the row factor and the rounding. -/
theorem row_mean (sq : Fl → Fl) {e : Encoder} {b l : Nat → ℚ} {L g : ℚ} (hT : Table e b l L) (hf : FloatLevels e.n l)
    (hg : Row.Gaps e.n l g) (hlo : -(5 / 4 * L) ≤ l 0) (hb : Supported bits) (hq : e.quantCount = 2 ^ bits)
    (h : Holds nR (nPol * nCh) A D data) (hF : ∀ r i, r < nR → i < nPol * nCh → FloatVis (D r i)) (fuel : Nat)
    {packed : Mem 8} {unpacked out : Buf Nat} (hp : packed.len = blockSize nR (symbolCount nR nPol nCh) bits)
    (hu : unpacked.len = symbolCount nR nPol nCh) (ho : out.len = symbolCount nR nPol nCh)
    (dflt : DataRow Cx) (rows : Block Cx) {r i : Nat} (hr : r < nR) (hi : i < nPol * nCh)
    {M m a : ℚ} (hM : IsMax (nPol * nCh) (D r) M) (hM2 : M ≤ 2 ^ (127 : ℤ)) (hML : M / L ≤ 2 ^ (127 : ℤ))
    (hc : Counted (D r i) m) (hin : (l 0 + L * (1 / 16000000) + 2 ^ (-150 : ℤ)) * M < a * L) :
    ((D r i).re = .fin a → ∃ y, ReadBack sq e nR nPol nCh nAnt bits fuel A data packed unpacked out dflt rows
        ((r * (nPol * nCh) + i) * 2) r i Cx.re y ∧ |Row.mean y - a| ≤ Row.floatBound (g / 2 ^ 22) M L) ∧
    ((D r i).im = .fin a → ∃ y, ReadBack sq e nR nPol nCh nAnt bits fuel A data packed unpacked out dflt rows
        ((r * (nPol * nCh) + i) * 2 + 1) r i Cx.im y ∧ |Row.mean y - a| ≤ Row.floatBound (g / 2 ^ 22) M L) := by
  have hlt := flat_lt hr hi
  have hsc : (r * (nPol * nCh) + i) * 2 + 1 < symbolCount nR nPol nCh := by
    rw [symbolCount_eq]
    omega
  have hmM := hM.2.1 i m hi hc
  obtain ⟨hMr, -⟩ := Row.max_float hM (fun i hi => hF r i hr hi)
  have blk := fun dith => row_block (nAnt := nAnt) sq hT hb hq (by omega) h dith fuel hp hu ho dflt rows
  choose d x s b1 b2 b3 b4 b5 b6 using blk
  constructor
  · intro ha
    have hs : ∀ dith, e.encodeDither Fl.r32 (Fl.cast Fl.r32 (Fl.mul Fl.r64 (.fin a) (Row.rowFactor Fl.r64 (.fin L) (.fin M))))
        (dith ((r * (nPol * nCh) + i) * 2)) = some (s dith ((r * (nPol * nCh) + i) * 2)) := by
      intro dith
      have := (b5 dith r i hr hi).1
      rw [ha, maxFold_eq hM] at this
      simpa [encFn] using this
    obtain ⟨y, y1, y2⟩ := Row.component_mean hT hf hg hlo (hF r i hr hi a (Or.inl ha)).1 (le_trans (hc.re_le ha) hmM) hMr hM2 hML
      hin (s := fun m => s (fun _ => m) ((r * (nPol * nCh) + i) * 2)) (fun m _ => hs fun _ => m)
      (fun m _ => by rw [hq]; exact (b3 _ _ (by omega)).1)
    refine ⟨y, fun dith hm => ⟨d dith, x dith, b1 dith, b2 dith, ?_⟩, y2⟩
    rw [b6 dith r i hr hi, b4 dith r hr, maxFold_eq hM, ← y1 _ hm]
    have : s dith ((r * (nPol * nCh) + i) * 2) = s (fun _ => dith ((r * (nPol * nCh) + i) * 2)) ((r * (nPol * nCh) + i) * 2) :=
      Option.some.inj ((hs dith).symm.trans (hs fun _ => dith ((r * (nPol * nCh) + i) * 2)))
    rw [← this]
  · intro ha
    have hs : ∀ dith, e.encodeDither Fl.r32 (Fl.cast Fl.r32 (Fl.mul Fl.r64 (.fin a) (Row.rowFactor Fl.r64 (.fin L) (.fin M))))
        (dith ((r * (nPol * nCh) + i) * 2 + 1)) = some (s dith ((r * (nPol * nCh) + i) * 2 + 1)) := by
      intro dith
      have := (b5 dith r i hr hi).2
      rw [ha, maxFold_eq hM] at this
      simpa [encFn] using this
    obtain ⟨y, y1, y2⟩ := Row.component_mean hT hf hg hlo (hF r i hr hi a (Or.inr ha)).1 (le_trans (hc.im_le ha) hmM) hMr hM2 hML
      hin (s := fun m => s (fun _ => m) ((r * (nPol * nCh) + i) * 2 + 1)) (fun m _ => hs fun _ => m)
      (fun m _ => by rw [hq]; exact (b3 _ _ (by omega)).1)
    refine ⟨y, fun dith hm => ⟨d dith, x dith, b1 dith, b2 dith, ?_⟩, y2⟩
    rw [b6 dith r i hr hi, b4 dith r hr, maxFold_eq hM, ← y1 _ hm]
    have : s dith ((r * (nPol * nCh) + i) * 2 + 1) =
        s (fun _ => dith ((r * (nPol * nCh) + i) * 2 + 1)) ((r * (nPol * nCh) + i) * 2 + 1) :=
      Option.some.inj ((hs dith).symm.trans (hs fun _ => dith ((r * (nPol * nCh) + i) * 2 + 1)))
    rw [← this]

/-- **C140** for the quantisers that a data column makes, with the precision of C79. -/
theorem prepared_row_mean (sq : Fl → Fl) {lib : Prepare.Lib} {dn : Tools.Distribution} (hco : End.Concrete lib dn bits)
    {fl : Nat} {e0 d0 : Nat → Fl} {e : Encoder} (he : Prepare.encoder lib fl dn bits e0 d0 = some e) (hb : Supported bits)
    (h : Holds nR (nPol * nCh) A D data) (hF : ∀ r i, r < nR → i < nPol * nCh → FloatVis (D r i)) (fuel : Nat)
    {packed : Mem 8} {unpacked out : Buf Nat} (hp : packed.len = blockSize nR (symbolCount nR nPol nCh) bits)
    (hu : unpacked.len = symbolCount nR nPol nCh) (ho : out.len = symbolCount nR nPol nCh)
    (dflt : DataRow Cx) (rows : Block Cx) {r i : Nat} (hr : r < nR) (hi : i < nPol * nCh)
    {M m a : ℚ} (hM : IsMax (nPol * nCh) (D r) M) (hM2 : M ≤ 2 ^ (127 : ℤ)) (hc : Counted (D r i) m)
    (hin : (-1 + End.ratio dn ((2 ^ bits - 1 : Nat) : ℚ) + 1 / 10000000) * M < a) :
    ((D r i).re = .fin a → ∃ y, ReadBack sq e nR nPol nCh nAnt bits fuel A data packed unpacked out dflt rows
        ((r * (nPol * nCh) + i) * 2) r i Cx.re y ∧
        |Row.mean y - a| ≤ (End.ratio dn ((2 ^ bits - 1 : Nat) : ℚ) + 1) * M / 2 ^ 22 + (M + 7 / 2) * 2 ^ (-149 : ℤ)) ∧
    ((D r i).im = .fin a → ∃ y, ReadBack sq e nR nPol nCh nAnt bits fuel A data packed unpacked out dflt rows
        ((r * (nPol * nCh) + i) * 2 + 1) r i Cx.im y ∧
        |Row.mean y - a| ≤ (End.ratio dn ((2 ^ bits - 1 : Nat) : ℚ) + 1) * M / 2 ^ 22 + (M + 7 / 2) * 2 ^ (-149 : ℤ)) := by
  have h16 : bits ≤ 16 := by
    rcases hb with h | h | h | h | h | h | h | h <;> omega
  have hbits : 2 ≤ bits := by
    rcases hb with h | h | h | h | h | h | h | h <;> omega
  obtain ⟨e', b, l, L, δ, t1, t2, t3, t4, t5⟩ := End.concrete_table hco h16 fl e0 d0
  obtain rfl : e' = e := Option.some.inj (t1.symm.trans he)
  have hq : 2 ^ 2 ≤ 2 ^ bits := Nat.pow_le_pow_right (by norm_num) hbits
  have hlv := t2.table.levels
  have hn2 := hlv.two
  have hLpos : (0 : ℚ) < L := by linarith
  have hfl : FloatLevels e'.n l := by
    intro i hi
    refine ⟨Prepare.level_repr (by omega) (Prepare.value_isFloat lib fl dn) t1 hlv hi, ?_⟩
    have h1 := StrictlyAscending.asc hlv.asc 0 i (by omega) hi
    have h2 := StrictlyAscending.asc hlv.asc i (e'.n - 1) (by omega) (by omega)
    rw [t2.table.top] at h2
    have h3 := t2.low
    rw [abs_le]
    constructor <;> norm_num <;> linarith
  have hM0 := hM.1
  have hML : M / L ≤ M := div_le_self hM0 t4
  have hδ : δ ≤ End.ratio dn ((2 ^ bits - 1 : Nat) : ℚ) * L := by rwa [div_le_iff₀ hLpos] at t3
  generalize End.ratio dn ((2 ^ bits - 1 : Nat) : ℚ) = ρ at *
  have hin' : (l 0 + L * (1 / 16000000) + 2 ^ (-150 : ℤ)) * M < a * L := by
    have h1 : (2 : ℚ) ^ (-150 : ℤ) ≤ 1 / 100000000 := by norm_num
    generalize (2 : ℚ) ^ (-150 : ℤ) = z at h1 ⊢
    have h2 : l 0 + L * (1 / 16000000) + z ≤ (-1 + ρ + 1 / 10000000) * L := by
      have := t2.sym
      linarith
    calc (l 0 + L * (1 / 16000000) + z) * M ≤ (-1 + ρ + 1 / 10000000) * L * M := mul_le_mul_of_nonneg_right h2 hM0
      _ = (-1 + ρ + 1 / 10000000) * M * L := by ring
      _ < a * L := mul_lt_mul_of_pos_right hin hLpos
  have hbd : Row.floatBound (δ / 2 ^ 22) M L ≤ (ρ + 1) * M / 2 ^ 22 + (M + 7 / 2) * 2 ^ (-149 : ℤ) := by
    have h1 : δ / 2 ^ 22 * (M / L) ≤ ρ * M / 2 ^ 22 := by
      have : δ / 2 ^ 22 * (M / L) = δ / L * M / 2 ^ 22 := by ring
      rw [this]
      exact div_le_div_of_nonneg_right (mul_le_mul_of_nonneg_right t3 hM0) (by norm_num)
    have h2 : M * 2 ^ (-22 : ℤ) = M / 2 ^ 22 := by norm_num [div_eq_mul_inv]
    have h3 : (M / L + L + 1) * 2 ^ (-149 : ℤ) ≤ (M + 7 / 2) * 2 ^ (-149 : ℤ) :=
      mul_le_mul_of_nonneg_right (by linarith) (Fl.zp_pos _).le
    have h4 : (ρ + 1) * M / 2 ^ 22 = ρ * M / 2 ^ 22 + M / 2 ^ 22 := by ring
    rw [Row.floatBound, h2, h4]
    linarith
  obtain ⟨g1, g2⟩ := row_mean (nAnt := nAnt) sq t2.table hfl (g := δ) t2.gap t2.low hb t2.count h hF fuel hp hu ho dflt rows
    hr hi hM hM2 (le_trans hML hM2) hc hin'
  constructor
  · intro ha
    obtain ⟨y, y1, y2⟩ := g1 ha
    exact ⟨y, y1, le_trans y2 hbd⟩
  · intro ha
    obtain ⟨y, y1, y2⟩ := g2 ha
    exact ⟨y, y1, le_trans y2 hbd⟩

/-- One visibility `1 + i/4` and the levels -1, 0 and 1: the imaginary part is read as 0 or 1, and as `1/4` in the mean. -/
example (packed : Mem 8) (hl : packed.len = 5) (dflt : DataRow Cx) (rows : Block Cx) :
    ∃ y, ReadBack id Row.smallTable 1 1 1 2 2 5 (fun _ => (0, 1)) ⟨1, fun _ => ⟨0, 1, ⟨1, fun _ => ⟨.fin 1, .fin (1 / 4)⟩⟩⟩⟩ packed
      ⟨2, fun _ => 0⟩ ⟨2, fun _ => 0⟩ dflt rows 1 0 0 Cx.im y ∧ |Row.mean y - 1 / 4| ≤ 1 / 1000000 := by
  have hc : Counted (⟨.fin 1, .fin (1 / 4)⟩ : Cx) 1 := ⟨1, rfl, Or.inl ⟨1 / 4, rfl, by norm_num⟩⟩
  have hM : IsMax (1 * 1) (fun _ => (⟨.fin 1, .fin (1 / 4)⟩ : Cx)) 1 :=
    ⟨by norm_num, fun i m _ h => (hc.unique h).ge, Or.inr ⟨0, by decide, hc⟩⟩
  have hn : Row.smallTable.n = 3 := rfl
  have hlev : FloatLevels Row.smallTable.n fun i => (i : ℚ) - 1 := by
    intro i hi
    rw [hn] at hi
    interval_cases i
    · exact ⟨⟨-1, 0, by decide, by norm_num [Fl.binary32], by norm_num⟩, by norm_num⟩
    · exact ⟨⟨0, 0, by decide, by norm_num [Fl.binary32], by norm_num⟩, by norm_num⟩
    · exact ⟨⟨1, 0, by decide, by norm_num [Fl.binary32], by norm_num⟩, by norm_num⟩
  obtain ⟨y, y1, y2⟩ := (row_mean (nAnt := 2) (bits := 2) (nR := 1) (nPol := 1) (nCh := 1) (A := fun _ => (0, 1)) (g := 1)
    (D := fun _ _ => ⟨.fin 1, .fin (1 / 4)⟩) (data := ⟨1, fun _ => ⟨0, 1, ⟨1, fun _ => ⟨.fin 1, .fin (1 / 4)⟩⟩⟩⟩) id Row.smallTable_ok
    hlev (fun k _ => by push_cast; linarith) (by norm_num) (Or.inl rfl) rfl
    ⟨rfl, fun _ _ => rfl, fun _ _ => rfl, fun _ _ _ _ => rfl⟩
    (fun r i _ _ a ha => by
      rcases ha with ha | ha
      · obtain rfl := Fl.fin.inj ha
        exact ⟨⟨1, 0, by decide, by norm_num [Fl.binary32], by norm_num⟩, by norm_num⟩
      · obtain rfl := Fl.fin.inj ha
        exact ⟨⟨1, -2, by decide, by norm_num [Fl.binary32], by norm_num⟩, by norm_num⟩)
    5 hl (unpacked := ⟨2, fun _ => 0⟩) (out := ⟨2, fun _ => 0⟩) rfl rfl dflt rows (r := 0) (i := 0) (by decide)
    (by decide) hM (by norm_num) (by norm_num) hc (a := 1 / 4) (by norm_num)).2 rfl
  refine ⟨y, y1, le_trans y2 ?_⟩
  norm_num [Row.floatBound]

/-- The same visibility with the uniform quantiser of 8 bits. -/
example (lib : Prepare.Lib) (e0 d0 : Nat → Fl) (packed : Mem 8) (hl : packed.len = 6) (dflt : DataRow Cx) (rows : Block Cx) :
    ∃ e, Prepare.encoder lib 5 .uniform 8 e0 d0 = some e ∧
      ∃ y, ReadBack id e 1 1 1 2 8 5 (fun _ => (0, 1)) ⟨1, fun _ => ⟨0, 1, ⟨1, fun _ => ⟨.fin 1, .fin (1 / 4)⟩⟩⟩⟩ packed
        ⟨2, fun _ => 0⟩ ⟨2, fun _ => 0⟩ dflt rows 1 0 0 Cx.im y ∧ |Row.mean y - 1 / 4| ≤ 1 / 4000000 := by
  have hc : Counted (⟨.fin 1, .fin (1 / 4)⟩ : Cx) 1 := ⟨1, rfl, Or.inl ⟨1 / 4, rfl, by norm_num⟩⟩
  have hM : IsMax (1 * 1) (fun _ => (⟨.fin 1, .fin (1 / 4)⟩ : Cx)) 1 :=
    ⟨by norm_num, fun i m _ h => (hc.unique h).ge, Or.inr ⟨0, by decide, hc⟩⟩
  have hco : End.Concrete lib .uniform 8 := Or.inl ⟨rfl, by decide⟩
  obtain ⟨e, -, -, -, -, he, -⟩ := End.concrete_table hco (by decide) 5 e0 d0
  refine ⟨e, he, ?_⟩
  obtain ⟨y, y1, y2⟩ := (prepared_row_mean (nAnt := 2) (nR := 1) (nPol := 1) (nCh := 1) (A := fun _ => (0, 1))
    (D := fun _ _ => ⟨.fin 1, .fin (1 / 4)⟩) (data := ⟨1, fun _ => ⟨0, 1, ⟨1, fun _ => ⟨.fin 1, .fin (1 / 4)⟩⟩⟩⟩) id hco he
    (by unfold Supported; decide) ⟨rfl, fun _ _ => rfl, fun _ _ => rfl, fun _ _ _ _ => rfl⟩
    (fun r i _ _ a ha => by
      rcases ha with ha | ha
      · obtain rfl := Fl.fin.inj ha
        exact ⟨⟨1, 0, by decide, by norm_num [Fl.binary32], by norm_num⟩, by norm_num⟩
      · obtain rfl := Fl.fin.inj ha
        exact ⟨⟨1, -2, by decide, by norm_num [Fl.binary32], by norm_num⟩, by norm_num⟩)
    5 hl (unpacked := ⟨2, fun _ => 0⟩) (out := ⟨2, fun _ => 0⟩) rfl rfl dflt rows (r := 0) (i := 0) (by decide)
    (by decide) hM (by norm_num) hc (a := 1 / 4) (by norm_num [End.ratio])).2 rfl
  refine ⟨y, y1, le_trans y2 ?_⟩
  norm_num [End.ratio]

end Dysco.Layout
