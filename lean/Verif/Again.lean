import Verif.MeanRF
import Verif.RFFloat

/-!
# C147: compressing row-normalised data a second time

What is read from a row-normalised block are levels of the quantiser times the factor of the row. When such data are compressed
again, with the same quantiser, almost every dither value leads to the same level, so that no second quantisation error is made.
-/

namespace Dysco.Row
open Stochastic

/-- Neighbouring levels are at least `γ` apart. Not in the code. -/
def Apart (n : Nat) (l : Nat → ℚ) (γ : ℚ) : Prop := ∀ k, k + 1 < n → γ ≤ l (k + 1) - l k

/-- The part of the dither values for which something holds. Not in the code. -/
def share (P : Nat → Prop) [DecidablePred P] : ℚ := ((Finset.range (2 ^ 31)).filter P).card / 2 ^ 31

theorem share_mono {P Q : Nat → Prop} [DecidablePred P] [DecidablePred Q] (h : ∀ m, m < 2 ^ 31 → P m → Q m) :
    share P ≤ share Q := by
  unfold share
  refine div_le_div_of_nonneg_right ?_ (by norm_num)
  have : ((Finset.range (2 ^ 31)).filter P).card ≤ ((Finset.range (2 ^ 31)).filter Q).card := by
    refine Finset.card_le_card fun m hm => ?_
    obtain ⟨h1, h2⟩ := Finset.mem_filter.1 hm
    exact Finset.mem_filter.2 ⟨h1, h m (Finset.mem_range.1 h1) h2⟩
  exact_mod_cast this

/-- If something costs at least `γ` when `P` holds and never less than zero, `P` holds for a part of at most the mean cost over `γ`. -/
theorem share_le {P : Nat → Prop} [DecidablePred P] {f : Nat → ℚ} {γ : ℚ} (hγ : 0 < γ) (h0 : ∀ m, m < 2 ^ 31 → 0 ≤ f m)
    (h1 : ∀ m, m < 2 ^ 31 → P m → γ ≤ f m) : share P ≤ mean f / γ := by
  rw [le_div_iff₀ hγ]
  unfold share mean
  rw [div_mul_eq_mul_div]
  refine div_le_div_of_nonneg_right ?_ (by norm_num)
  calc _ = ∑ m ∈ (Finset.range (2 ^ 31)).filter P, γ := by rw [Finset.sum_const, nsmul_eq_mul]
    _ ≤ ∑ m ∈ (Finset.range (2 ^ 31)).filter P, f m := Finset.sum_le_sum fun m hm => by
        obtain ⟨h2, h3⟩ := Finset.mem_filter.1 hm
        exact h1 m (Finset.mem_range.1 h2) h3
    _ ≤ _ := Finset.sum_le_sum_of_subset_of_nonneg (Finset.filter_subset _ _) fun m hm _ => h0 m (Finset.mem_range.1 hm)

theorem mean_sub_const (v : Nat → ℚ) (c : ℚ) : mean (fun m => v m - c) = mean v - c := by
  unfold mean
  rw [Finset.sum_sub_distrib, Finset.sum_const, Finset.card_range, nsmul_eq_mul, sub_div]
  push_cast
  ring

theorem mean_const_sub (v : Nat → ℚ) (c : ℚ) : mean (fun m => c - v m) = c - mean v := by
  unfold mean
  rw [Finset.sum_sub_distrib, Finset.sum_const, Finset.card_range, nsmul_eq_mul, sub_div]
  push_cast
  ring

/-- A number close to a level gets that level with almost every dither value. -/
theorem level_keep {e : Encoder} {b l : Nat → ℚ} {x L g γ ε : ℚ} (hT : Table e b l L) (hf : FloatLevels e.n l)
    (hg : Gaps e.n l g) (hγ : 0 < γ) (ha : Apart e.n l γ) (hlo : -(5 / 4 * L) ≤ l 0) (hxr : Fl.Repr Fl.binary32 x) (hx : |x| ≤ L)
    {s : Nat → Nat} (hs : ∀ m, m < 2 ^ 31 → e.encodeDither Fl.r32 (.fin x) m = some (s m))
    (hq : ∀ m, m < 2 ^ 31 → s m < e.quantCount) {t : Nat} (ht : t < e.n) (hε : |x - l t| ≤ ε) :
    share (fun m => s m ≠ t) ≤ (ε + g / 2 ^ 22) / γ := by
  have hn := hT.levels.two
  have asc := StrictlyAscending.asc hT.levels.asc
  have hg0 : 0 ≤ g / 2 ^ 22 := by
    have h1 := hg 0 (by omega)
    have h2 := ha 0 (by omega)
    have : 0 ≤ g := by linarith
    positivity
  obtain ⟨v, v1, v2⟩ := level_mean hT hf hg hlo hxr hx hs hq
  have hv : ∀ m, m < 2 ^ 31 → s m < e.n ∧ v m = l (s m) ∧ (x ≤ l t → s m ≤ t) ∧ (l t < x → t ≤ s m) := by
    intro m hm
    obtain ⟨s', g1, g2, g3⟩ := dither_neighbour hT.levels Fl.r32 x m
    obtain rfl : s' = s m := Option.some.inj (g1.symm.trans (hs m hm))
    refine ⟨g2, Fl.fin.inj ((v1 m hm).1.symm.trans (hT.levels.eq _ g2)), fun h => ?_, fun h => ?_⟩
    · rcases g3 with ⟨-, g3⟩ | ⟨g3, -⟩ | ⟨k, k1, k2, -, k4⟩
      · omega
      · have := asc t (e.n - 1) (by omega) (by omega)
        linarith
      · have : k < t := by
          by_contra hc
          have := asc t k (by omega) (by omega)
          linarith
        omega
    · rcases g3 with ⟨g3, -⟩ | ⟨-, g3⟩ | ⟨k, k1, -, k3, k4⟩
      · have := asc 0 t (by omega) ht
        linarith
      · omega
      · have : t < k + 1 := by
          by_contra hc
          have := asc (k + 1) t (by omega) ht
          linarith
        omega
  obtain ⟨e1, e2⟩ := abs_le.1 hε
  rcases le_or_gt x (l t) with h | h
  · refine le_trans (share_le (f := fun m => l t - v m) hγ (fun m hm => ?_) fun m hm hP => ?_)
      (div_le_div_of_nonneg_right ?_ hγ.le)
    · obtain ⟨-, w2, w3, -⟩ := hv m hm
      have := asc (s m) t (w3 h) ht
      rw [w2]
      linarith
    · obtain ⟨-, w2, w3, -⟩ := hv m hm
      have w := w3 h
      have h1 := ha (s m) (by omega)
      have h2 := asc (s m + 1) t (by omega) ht
      rw [w2]
      linarith
    · rw [mean_const_sub]
      rcases v2 with v2 | ⟨h1, v2, -⟩
      · have := (abs_le.1 v2).1
        linarith
      · rw [v2]
        linarith
  · refine le_trans (share_le (f := fun m => v m - l t) hγ (fun m hm => ?_) fun m hm hP => ?_)
      (div_le_div_of_nonneg_right ?_ hγ.le)
    · obtain ⟨w1, w2, -, w4⟩ := hv m hm
      have := asc t (s m) (w4 h) w1
      rw [w2]
      linarith
    · obtain ⟨w1, w2, -, w4⟩ := hv m hm
      have w := w4 h
      have h1 := ha t (by omega)
      have h2 := asc (t + 1) (s m) (by omega) w1
      rw [w2]
      linarith
    · rw [mean_sub_const]
      rcases v2 with v2 | ⟨h1, v2, -⟩
      · have := (abs_le.1 v2).2
        linarith
      · have := asc 0 t (by omega) ht
        rw [v2]
        linarith

/-- The numbers of the second time: `a` was read for the level `lev`, and `M'` is close to the maximum `M` of the first time. -/
theorem again_close {a lev M M' L : ℚ} (hL : 0 < L) (hM : 0 < M) (hlev : |lev| ≤ 5 / 4 * L)
    (ha : |a - lev * (M / L)| ≤ M * (1 / 5900000)) (hM' : |M' - M| ≤ M * (1 / 500000)) :
    0 < M' ∧ |a * (L / M') - lev| ≤ L * (1 / 374000) := by
  obtain ⟨m1, m2⟩ := abs_le.1 hM'
  have hpos : 0 < M' := by linarith
  refine ⟨hpos, ?_⟩
  have e : a * (L / M') - lev = ((a - lev * (M / L)) * L - lev * (M' - M)) / M' := by
    field_simp
    ring
  rw [e, abs_div, abs_of_pos hpos, div_le_iff₀ hpos]
  have t := abs_sub ((a - lev * (M / L)) * L) (lev * (M' - M))
  rw [abs_mul, abs_mul, abs_of_pos hL] at t
  have t1 : |a - lev * (M / L)| * L ≤ M * (1 / 5900000) * L := mul_le_mul_of_nonneg_right ha hL.le
  have t2 : |lev| * |M' - M| ≤ 5 / 4 * L * (M * (1 / 500000)) := mul_le_mul hlev hM' (abs_nonneg _) (by positivity)
  have t4 : L * (M - M * (1 / 500000)) ≤ L * M' := mul_le_mul_of_nonneg_left (by linarith) hL.le
  have t5 := mul_pos hL hM
  have e1 : M * (1 / 5900000) * L = L * M * (1 / 5900000) := by ring
  have e2 : 5 / 4 * L * (M * (1 / 500000)) = L * M * (1 / 400000) := by ring
  have e3 : L * (M - M * (1 / 500000)) = L * M - L * M * (1 / 500000) := by ring
  rw [e1] at t1
  rw [e2] at t2
  rw [e3] at t4
  have e4 : L * (1 / 374000) * M' = L * M' * (1 / 374000) := by ring
  rw [e4]
  linarith

end Dysco.Row

namespace Dysco.Layout
open BytePacker TimeBlock Stochastic

variable {nR nPol nCh nAnt bits : Nat} {A : Nat → Nat × Nat} {D : Nat → Nat → Cx} {data data' : Block Cx}

/-- **C147** A block is written with row normalisation and read, and what was read, `x0`, is written and read again. `M` is the
largest value of a row, and the largest value that was read, `M'`, is close to it. A part of a sample of the row that was read as
`a` is read as `a` again, up to a rounding error of `M'/350000`, for all dither values but a share of `L/360000 + g/2^22` over the
smallest distance `γ` of levels. -/
theorem row_again (sq : Fl → Fl) {e : Encoder} {b l : Nat → ℚ} {L g γ : ℚ} (hT : Table e b l L) (hf : FloatLevels e.n l)
    (hg : Row.Gaps e.n l g) (hγ : 0 < γ) (hap : Row.Apart e.n l γ) (hlo : -(5 / 4 * L) ≤ l 0) (hL1 : 1 ≤ L)
    (hb : Supported bits) (hq : e.quantCount = 2 ^ bits)
    (h : Holds nR (nPol * nCh) A D data) (hF : ∀ r i, r < nR → i < nPol * nCh → FloatVis (D r i))
    {dith : Nat → Nat} (fuel : Nat) {packed packed' : Mem 8} {unpacked unpacked' out out' : Buf Nat}
    (hp : packed.len = blockSize nR (symbolCount nR nPol nCh) bits) (hp' : packed'.len = blockSize nR (symbolCount nR nPol nCh) bits)
    (hu : unpacked.len = symbolCount nR nPol nCh) (hu' : unpacked'.len = symbolCount nR nPol nCh)
    (ho : out.len = symbolCount nR nPol nCh) (ho' : out'.len = symbolCount nR nPol nCh)
    (dflt : DataRow Cx) (rows rows' : Block Cx) {d0 : Mem 8} {x0 : Block Cx}
    (h1 : writeBlock (encData .row sq e nPol nCh nAnt dith fuel data) bits nR (symbolCount nR nPol nCh) packed unpacked = .ok d0)
    (h2 : readBlock (decData .row e nPol nCh nAnt A) bits nR (symbolCount nR nPol nCh) nR dflt d0 out rows = .ok x0)
    (h' : Holds nR (nPol * nCh) A (fun r i => (x0.get r).vis.get i) data')
    {r i : Nat} (hr : r < nR) (hi : i < nPol * nCh) {M M' m a : ℚ} (hM : IsMax (nPol * nCh) (D r) M)
    (hMs : (L + 1) * 2 ^ (-110 : ℤ) ≤ M) (hM2 : M ≤ 2 ^ (126 : ℤ))
    (hM' : IsMax (nPol * nCh) (fun i => (x0.get r).vis.get i) M')
    (htop : |M' - M| ≤ M * (1 / 500000))
    (hc : Counted ((x0.get r).vis.get i) m) {part : Cx → Fl} {j : Nat}
    (hpart : part = Cx.re ∧ j = (r * (nPol * nCh) + i) * 2 ∨ part = Cx.im ∧ j = (r * (nPol * nCh) + i) * 2 + 1)
    (ha : part ((x0.get r).vis.get i) = .fin a) :
    ∃ y, ReadBack sq e nR nPol nCh nAnt bits fuel A data' packed' unpacked' out' dflt rows' j r i part y ∧
      Row.share (fun m => ¬ |y m - a| ≤ M' * (1 / 350000)) ≤ (L * (1 / 360000) + g / 2 ^ 22) / γ := by
  have hL := hT.pos
  have hn := hT.levels.two
  have hL2 : L < 2 ^ (128 : ℤ) := lt_of_le_of_lt hT.le fltMax_lt
  have z110 := Fl.zp_pos (-110)
  have hM0 : 0 < M := lt_of_lt_of_le (mul_pos (by linarith) z110) hMs
  obtain ⟨hMr, -⟩ := Row.max_float hM (fun i hi => hF r i hr hi)
  have h127 : (2 : ℚ) ^ (127 : ℤ) = 2 * 2 ^ (126 : ℤ) := by norm_num
  have p126 := Fl.zp_pos 126
  have hM27 : M ≤ 2 ^ (127 : ℤ) := by
    rw [h127]
    linarith
  have hML : M / L ≤ 2 ^ (127 : ℤ) := le_trans (div_le_self hM0.le hL1) hM27
  have hB1 : (L + 1) * (2 : ℚ) ^ (-149 : ℤ) ≤ M * (1 / 500000000000) := by
    have : (L + 1) * (2 : ℚ) ^ (-149 : ℤ) = (L + 1) * 2 ^ (-110 : ℤ) * (1 / 549755813888) := by
      rw [mul_assoc]
      norm_num
    rw [this]
    generalize (L + 1) * (2 : ℚ) ^ (-110 : ℤ) = w at *
    clear hM27 hML h127 p126 hM2 hL2
    linarith
  have hsmall : (2 : ℚ) ^ (-150 : ℤ) ≤ 1 / 1000000000000 := by norm_num
  have hlt := flat_lt hr hi
  have hj : j < symbolCount nR nPol nCh := by
    rw [symbolCount_eq]
    rcases hpart with ⟨-, rfl⟩ | ⟨-, rfl⟩ <;> omega
  -- the first time
  obtain ⟨d, x, s, b1, b2, b3, b4, b5, b6⟩ := row_block (nAnt := nAnt) sq hT hb hq (by omega) h dith fuel hp hu ho dflt rows
  obtain rfl : d0 = d := Res.ok.inj (h1.symm.trans b1)
  obtain rfl : x0 = x := Res.ok.inj (h2.symm.trans b2)
  have hF' : ∀ r i, r < nR → i < nPol * nCh → FloatVis ((x0.get r).vis.get i) := by
    intro r i hr hi a ha
    rw [b6 r i hr hi] at ha
    rcases ha with ha | ha <;> exact Fl.isFloat_cast _ a ha
  have ha1 : Fl.cast Fl.r32 (Fl.mul Fl.r64 (e.level (s j)) (Fl.cast Fl.r32 (Fl.div Fl.r64 (.fin M) (.fin L)))) = .fin a := by
    rw [b6 r i hr hi, b4 r hr, maxFold_eq hM] at ha
    rcases hpart with ⟨rfl, rfl⟩ | ⟨rfl, rfl⟩ <;> exact ha
  have hsn : s j < e.n := by
    have h3 := (b3 j hj).1
    rw [← hq, Encoder.quantCount] at h3
    by_contra hn'
    have h4 : s j = e.n := by omega
    rw [h4, hT.levels.slot] at ha1
    simp [Fl.mul, Fl.cast] at ha1
  have hlevt := hT.levels.eq _ hsn
  have hl54 : ∀ k, k < e.n → |l k| ≤ 5 / 4 * L := by
    intro k hk
    have h3 := StrictlyAscending.asc hT.levels.asc 0 k (by omega) hk
    have h4 := StrictlyAscending.asc hT.levels.asc k (e.n - 1) (by omega) (by omega)
    rw [hT.top] at h4
    rw [abs_le]
    constructor <;> linarith
  have hclose : |a - l (s j) * (M / L)| ≤ M * (1 / 6000000) + (L + 1) * 2 ^ (-149 : ℤ) := by
    obtain ⟨y, y1, y2⟩ := Row.decode_component hL hL2 (hl54 _ hsn) hM0 hMr hM27 hML
    rw [hlevt, y1] at ha1
    rwa [← Fl.fin.inj ha1]
  obtain ⟨hM0', hnear⟩ := Row.again_close hL hM0 (hl54 _ hsn) (le_trans hclose (by linarith)) htop
  obtain ⟨m1, m2⟩ := abs_le.1 htop
  have hM27' : M' ≤ 2 ^ (127 : ℤ) := by
    rw [h127]
    linarith
  have hML' : M' / L ≤ 2 ^ (127 : ℤ) := le_trans (div_le_self hM0'.le hL1) hM27'
  obtain ⟨hMr', hM3'⟩ := Row.max_float hM' (fun i hi => hF' r i hr hi)
  have hB2 : (L + 1) * (2 : ℚ) ^ (-149 : ℤ) ≤ M' * (1 / 250000000000) := by linarith
  -- the second time
  have blk := fun dith => row_block (nAnt := nAnt) sq hT hb hq (by omega) h' dith fuel hp' hu' ho' dflt rows'
  choose d' x' s' c1 c2 c3 c4 c5 c6 using blk
  have har : (((x0.get r).vis.get i).re = .fin a ∨ ((x0.get r).vis.get i).im = .fin a) ∧ |a| ≤ m := by
    rcases hpart with ⟨rfl, -⟩ | ⟨rfl, -⟩
    · exact ⟨Or.inl ha, hc.re_le ha⟩
    · exact ⟨Or.inr ha, hc.im_le ha⟩
  have hLr : Fl.Repr Fl.binary32 L := by
    rw [← hT.top]
    exact (hf _ (by omega)).1
  obtain ⟨q, q1, q2, q3, -, -⟩ := Row.component_real hL hLr hL2 (hF' r i hr hi a har.1).1 (le_trans har.2 (hM'.2.1 i m hi hc)) hMr' hM3'
  have hs : ∀ dith, e.encodeDither Fl.r32 (.fin q) (dith j) = some (s' dith j) := by
    intro dith
    have := c5 dith r i hr hi
    rw [maxFold_eq hM'] at this
    rcases hpart with ⟨rfl, rfl⟩ | ⟨rfl, rfl⟩
    · have := this.1
      rw [show ((x0.get r).vis.get i).re = .fin a from ha, q1] at this
      simpa [encFn] using this
    · have := this.2
      rw [show ((x0.get r).vis.get i).im = .fin a from ha, q1] at this
      simpa [encFn] using this
  have hkeep := Row.level_keep hT hf hg hγ hap hlo (Fl.isFloat_cast _ q q1).1 q2 (s := fun m => s' (fun _ => m) j)
    (fun m _ => hs fun _ => m) (fun m _ => by rw [hq]; exact (c3 _ _ hj).1) hsn (ε := L * (1 / 360000)) (by
      have t := abs_add_le (q - a * (L / M')) (a * (L / M') - l (s j))
      rw [sub_add_sub_cancel] at t
      have := q3 hM0'
      generalize (2 : ℚ) ^ (-150 : ℤ) = w at *
      linarith)
  have hy : ∀ m, ∃ y, Fl.cast Fl.r32 (Fl.mul Fl.r64 (e.level (s' (fun _ => m) j))
      (Fl.cast Fl.r32 (Fl.div Fl.r64 (.fin M') (.fin L)))) = .fin y ∧
      |y - l (s' (fun _ => m) j) * (M' / L)| ≤ M' * (1 / 6000000) + (L + 1) * 2 ^ (-149 : ℤ) := by
    intro m
    obtain ⟨k, g1, g2, -⟩ := dither_neighbour hT.levels Fl.r32 q m
    obtain rfl : k = s' (fun _ => m) j := Option.some.inj (g1.symm.trans (hs fun _ => m))
    rw [hT.levels.eq _ g2]
    exact Row.decode_component hL hL2 (hl54 _ g2) hM0' hMr' hM27' hML'
  choose y y1 y2 using hy
  refine ⟨y, fun dith hm => ⟨d' dith, x' dith, c1 dith, c2 dith, ?_⟩, le_trans (Row.share_mono fun m hm hP => ?_) hkeep⟩
  · have : s' dith j = s' (fun _ => dith j) j := Option.some.inj ((hs dith).symm.trans (hs fun _ => dith j))
    rw [c6 dith r i hr hi, c4 dith r hr, maxFold_eq hM', ← y1 (dith j), ← this]
    rcases hpart with ⟨rfl, rfl⟩ | ⟨rfl, rfl⟩ <;> rfl
  · intro hst
    refine hP ?_
    have h3 := y2 m
    rw [hst] at h3
    have hq0 : 0 < M' / L := div_pos hM0' hL
    have h4 : |l (s j) * (M' / L) - a| ≤ M' * (1 / 374000) := by
      have e1 : l (s j) * (M' / L) - a = -((a * (L / M') - l (s j)) * (M' / L)) := by
        field_simp
        ring
      rw [e1, abs_neg, abs_mul, abs_of_pos hq0]
      calc _ ≤ L * (1 / 374000) * (M' / L) := mul_le_mul_of_nonneg_right hnear hq0.le
        _ = _ := by field_simp
    have t := abs_add_le (y m - l (s j) * (M' / L)) (l (s j) * (M' / L) - a)
    rw [sub_add_sub_cancel] at t
    linarith

/-- When the largest value of a row is a positive part of a finite sample and its dither value is not one of the 64 largest of the
`2^31`, the largest value that is read is close to it. -/
theorem row_top (sq : Fl → Fl) {e : Encoder} {b l : Nat → ℚ} {L : ℚ} (hT : Table e b l L) (hf : FloatLevels e.n l)
    (hlo : -(L * (600001 / 600000)) ≤ l 0) (hL1 : 1 ≤ L) (hb : Supported bits) (hq : e.quantCount = 2 ^ bits)
    (h : Holds nR (nPol * nCh) A D data) (hF : ∀ r i, r < nR → i < nPol * nCh → FloatVis (D r i))
    {dith : Nat → Nat} (fuel : Nat) {packed : Mem 8} {unpacked out : Buf Nat}
    (hp : packed.len = blockSize nR (symbolCount nR nPol nCh) bits)
    (hu : unpacked.len = symbolCount nR nPol nCh) (ho : out.len = symbolCount nR nPol nCh)
    (dflt : DataRow Cx) (rows : Block Cx) {d0 : Mem 8} {x0 : Block Cx}
    (h1 : writeBlock (encData .row sq e nPol nCh nAnt dith fuel data) bits nR (symbolCount nR nPol nCh) packed unpacked = .ok d0)
    (h2 : readBlock (decData .row e nPol nCh nAnt A) bits nR (symbolCount nR nPol nCh) nR dflt d0 out rows = .ok x0)
    {r i : Nat} (hr : r < nR) (hi : i < nPol * nCh) {M u v : ℚ} (hM : IsMax (nPol * nCh) (D r) M)
    (hMs : (L + 1) * 2 ^ (-110 : ℤ) ≤ M) (hM2 : M ≤ 2 ^ (127 : ℤ)) (hre : (D r i).re = .fin u) (him : (D r i).im = .fin v)
    (hmax : u = M ∧ dith ((r * (nPol * nCh) + i) * 2) < 2 ^ 31 - 64 ∨
      v = M ∧ dith ((r * (nPol * nCh) + i) * 2 + 1) < 2 ^ 31 - 64) :
    ∃ M', |M' - M| ≤ M * (1 / 500000) ∧ IsMax (nPol * nCh) (fun i => (x0.get r).vis.get i) M' := by
  have hL := hT.pos
  have hn := hT.levels.two
  have hL2 : L < 2 ^ (128 : ℤ) := lt_of_le_of_lt hT.le fltMax_lt
  have hM0 : 0 < M := lt_of_lt_of_le (mul_pos (by linarith) (Fl.zp_pos (-110))) hMs
  obtain ⟨hMr, hM3⟩ := Row.max_float hM (fun i hi => hF r i hr hi)
  have hML : M / L ≤ 2 ^ (127 : ℤ) := le_trans (div_le_self hM0.le hL1) hM2
  have hLM : L * (M / L) = M := by field_simp
  have hq0 : 0 < M / L := div_pos hM0 hL
  have hLr : Fl.Repr Fl.binary32 L := by
    rw [← hT.top]
    exact (hf _ (by omega)).1
  have hB : M * (1 / 6000000) + (L + 1) * 2 ^ (-149 : ℤ) ≤ M * (1 / 5900000) := by
    have : (L + 1) * (2 : ℚ) ^ (-149 : ℤ) ≤ (L + 1) * 2 ^ (-110 : ℤ) * (1 / 500000000000) := by
      rw [mul_assoc]
      exact mul_le_mul_of_nonneg_left (by norm_num) (by linarith)
    generalize (L + 1) * (2 : ℚ) ^ (-149 : ℤ) = p at *
    generalize (L + 1) * (2 : ℚ) ^ (-110 : ℤ) = q at *
    clear hM2 hM3 hML hL2
    linarith
  have hl : ∀ k, k < e.n → |l k| ≤ L * (600001 / 600000) := by
    intro k hk
    have h3 := StrictlyAscending.asc hT.levels.asc 0 k (by omega) hk
    have h4 := StrictlyAscending.asc hT.levels.asc k (e.n - 1) (by omega) (by omega)
    rw [hT.top] at h4
    exact abs_le.2 ⟨by linarith, by linarith⟩
  obtain ⟨d, x, s, b1, b2, b3, b4, b5, b6⟩ := row_block (nAnt := nAnt) sq hT hb hq (by omega) h dith fuel hp hu ho dflt rows
  obtain rfl : d0 = d := Res.ok.inj (h1.symm.trans b1)
  obtain rfl : x0 = x := Res.ok.inj (h2.symm.trans b2)
  -- what is read for one symbol
  have hdec : ∀ k, k < e.n → ∃ y, Fl.cast Fl.r32 (Fl.mul Fl.r64 (e.level k) (Fl.cast Fl.r32 (Fl.div Fl.r64 (.fin M) (.fin L)))) =
      .fin y ∧ |y - l k * (M / L)| ≤ M * (1 / 5900000) := by
    intro k hk
    obtain ⟨y, y1, y2⟩ := Row.decode_component hL hL2 (lev := l k) (by have := hl k hk; linarith) hM0 hMr hM2 hML
    exact ⟨y, by rw [hT.levels.eq k hk]; exact y1, le_trans y2 hB⟩
  have hle : ∀ j y, j < symbolCount nR nPol nCh → Fl.cast Fl.r32 (Fl.mul Fl.r64 (e.level (s j))
      (Fl.cast Fl.r32 (Fl.div Fl.r64 (.fin M) (.fin L)))) = .fin y → |y| ≤ M + M * (1 / 500000) := by
    intro j y hj hy
    have h3 := (b3 j hj).1
    rw [← hq, Encoder.quantCount] at h3
    by_cases h4 : s j = e.n
    · rw [h4, hT.levels.slot] at hy
      simp [Fl.mul, Fl.cast] at hy
    · have hs : s j < e.n := by omega
      obtain ⟨y', y1, y2⟩ := hdec _ hs
      obtain rfl : y' = y := Fl.fin.inj (y1.symm.trans hy)
      have h5 := abs_sub_abs_le_abs_sub y' (l (s j) * (M / L))
      rw [abs_mul, abs_of_pos hq0] at h5
      have h6 : |l (s j)| * (M / L) ≤ L * (600001 / 600000) * (M / L) := mul_le_mul_of_nonneg_right (hl _ hs) hq0.le
      have h7 : L * (600001 / 600000) * (M / L) = M * (600001 / 600000) := by
        rw [mul_right_comm, hLM]
      rw [h7] at h6
      linarith
  have hvis : ∀ i, i < nPol * nCh → (x0.get r).vis.get i =
      ⟨Fl.cast Fl.r32 (Fl.mul Fl.r64 (e.level (s ((r * (nPol * nCh) + i) * 2))) (Fl.cast Fl.r32 (Fl.div Fl.r64 (.fin M) (.fin L)))),
       Fl.cast Fl.r32 (Fl.mul Fl.r64 (e.level (s ((r * (nPol * nCh) + i) * 2 + 1)))
        (Fl.cast Fl.r32 (Fl.div Fl.r64 (.fin M) (.fin L))))⟩ := by
    intro i hi
    rw [b6 r i hr hi, b4 r hr, maxFold_eq hM]
  have hjlt : ∀ i, i < nPol * nCh → (r * (nPol * nCh) + i) * 2 + 1 < symbolCount nR nPol nCh := by
    intro i hi
    have := flat_lt hr hi
    rw [symbolCount_eq]
    omega
  have hbd : ∀ i m, i < nPol * nCh → Counted ((x0.get r).vis.get i) m → m ≤ M + M * (1 / 500000) := by
    intro i m hi hc
    rw [hvis i hi] at hc
    have hj := hjlt i hi
    obtain ⟨a, h3, ⟨b, h4, rfl⟩ | ⟨-, rfl⟩⟩ := hc
    · exact max_le (hle _ _ (by omega) h3) (hle _ _ hj h4)
    · exact hle _ _ (by omega) h3
  -- one part of the sample: it is read as a number, and as the highest level if it is the largest
  have hC : Counted (D r i) (max |u| |v|) := ⟨u, hre, Or.inl ⟨v, him, rfl⟩⟩
  have hcM := hM.2.1 i _ hi hC
  have part : ∀ w j, Fl.Repr Fl.binary32 w → |w| ≤ M → e.encodeDither Fl.r32 (Fl.cast Fl.r32 (Fl.mul Fl.r64 (.fin w)
      (Row.rowFactor Fl.r64 (.fin L) (.fin M)))) (dith j) = some (s j) →
      ∃ y, Fl.cast Fl.r32 (Fl.mul Fl.r64 (e.level (s j)) (Fl.cast Fl.r32 (Fl.div Fl.r64 (.fin M) (.fin L)))) = .fin y ∧
        (w = M → dith j < 2 ^ 31 - 64 → M - M * (1 / 500000) ≤ |y|) := by
    intro w j hw hwM hs
    obtain ⟨q, q1, q2, q3, q4, -⟩ := Row.component_real hL hLr hL2 hw hwM hMr hM3
    rw [q1] at hs
    obtain ⟨k, g1, g2, -⟩ := dither_neighbour hT.levels Fl.r32 q (dith j)
    obtain rfl : k = s j := Option.some.inj (g1.symm.trans hs)
    obtain ⟨y, y1, y2⟩ := hdec _ g2
    refine ⟨y, y1, fun hwM' hd => ?_⟩
    have hqL : q = L := by
      have h3 := q4 hM0 (by rw [hwM', abs_of_pos hM0])
      rcases abs_choice q with h4 | h4
      · rw [← h4, h3]
      · exfalso
        have h5 := (abs_le.1 (q3 hM0)).1
        have h6 : M * (L / M) = L := by field_simp
        have h7 : (2 : ℚ) ^ (-150 : ℤ) ≤ 1 / 2 := by norm_num
        rw [hwM', h6] at h5
        generalize (2 : ℚ) ^ (-150 : ℤ) = w at *
        linarith
    have h3 := dither_level_exact hT.levels hf (e.n - 1) (by omega) (dith j) (by omega)
    rw [hT.top, if_pos (Or.inr hd), ← hqL, g1] at h3
    rw [Option.some.inj h3, hT.top, hLM] at y2
    have h4 := (abs_le.1 y2).1
    have h5 := le_abs_self y
    linarith
  have hS := b5 r i hr hi
  rw [hre, him, maxFold_eq hM] at hS
  obtain ⟨y, y1, y2⟩ := part u _ (hF r i hr hi u (Or.inl hre)).1 (le_trans (le_max_left _ _) hcM) (by simpa [encFn] using hS.1)
  obtain ⟨z, z1, z2⟩ := part v _ (hF r i hr hi v (Or.inr him)).1 (le_trans (le_max_right _ _) hcM) (by simpa [encFn] using hS.2)
  have hc : Counted ((x0.get r).vis.get i) (max |y| |z|) := by
    rw [hvis i hi]
    exact ⟨y, y1, Or.inl ⟨z, z1, rfl⟩⟩
  have hlow : M - M * (1 / 500000) ≤ max |y| |z| := by
    rcases hmax with ⟨w1, w2⟩ | ⟨w1, w2⟩
    · exact le_trans (y2 w1 w2) (le_max_left _ _)
    · exact le_trans (z2 w1 w2) (le_max_right _ _)
  obtain ⟨M', -, hM'⟩ := maxFold_spec (fun i => (x0.get r).vis.get i) (nPol * nCh)
  refine ⟨M', abs_le.2 ⟨?_, ?_⟩, hM'⟩
  · have := hM'.2.1 i _ hi hc
    linarith
  · rcases hM'.2.2 with h3 | ⟨k, hk, hck⟩
    · rw [h3]
      have : 0 < M * (1 / 500000) := by positivity
      linarith
    · have := hbd k _ hk hck
      linarith

/-- **C147** for a row whose largest value `M` is a positive part of a finite sample, when its dither value was not one of the 64
largest of the `2^31`. -/
theorem row_twice (sq : Fl → Fl) {e : Encoder} {b l : Nat → ℚ} {L g γ : ℚ} (hT : Table e b l L) (hf : FloatLevels e.n l)
    (hg : Row.Gaps e.n l g) (hγ : 0 < γ) (hap : Row.Apart e.n l γ) (hlo : -(L * (600001 / 600000)) ≤ l 0) (hL1 : 1 ≤ L)
    (hb : Supported bits) (hq : e.quantCount = 2 ^ bits)
    (h : Holds nR (nPol * nCh) A D data) (hF : ∀ r i, r < nR → i < nPol * nCh → FloatVis (D r i))
    {dith : Nat → Nat} (fuel : Nat) {packed packed' : Mem 8} {unpacked unpacked' out out' : Buf Nat}
    (hp : packed.len = blockSize nR (symbolCount nR nPol nCh) bits) (hp' : packed'.len = blockSize nR (symbolCount nR nPol nCh) bits)
    (hu : unpacked.len = symbolCount nR nPol nCh) (hu' : unpacked'.len = symbolCount nR nPol nCh)
    (ho : out.len = symbolCount nR nPol nCh) (ho' : out'.len = symbolCount nR nPol nCh)
    (dflt : DataRow Cx) (rows rows' : Block Cx) {d0 : Mem 8} {x0 : Block Cx}
    (h1 : writeBlock (encData .row sq e nPol nCh nAnt dith fuel data) bits nR (symbolCount nR nPol nCh) packed unpacked = .ok d0)
    (h2 : readBlock (decData .row e nPol nCh nAnt A) bits nR (symbolCount nR nPol nCh) nR dflt d0 out rows = .ok x0)
    (h' : Holds nR (nPol * nCh) A (fun r i => (x0.get r).vis.get i) data')
    {r k : Nat} (hr : r < nR) (hk : k < nPol * nCh) {M u v : ℚ} (hM : IsMax (nPol * nCh) (D r) M)
    (hMs : (L + 1) * 2 ^ (-110 : ℤ) ≤ M) (hM2 : M ≤ 2 ^ (126 : ℤ)) (hre : (D r k).re = .fin u) (him : (D r k).im = .fin v)
    (hmax : u = M ∧ dith ((r * (nPol * nCh) + k) * 2) < 2 ^ 31 - 64 ∨
      v = M ∧ dith ((r * (nPol * nCh) + k) * 2 + 1) < 2 ^ 31 - 64)
    {i : Nat} (hi : i < nPol * nCh) {m a : ℚ} (hc : Counted ((x0.get r).vis.get i) m) {part : Cx → Fl} {j : Nat}
    (hpart : part = Cx.re ∧ j = (r * (nPol * nCh) + i) * 2 ∨ part = Cx.im ∧ j = (r * (nPol * nCh) + i) * 2 + 1)
    (ha : part ((x0.get r).vis.get i) = .fin a) :
    ∃ y, ReadBack sq e nR nPol nCh nAnt bits fuel A data' packed' unpacked' out' dflt rows' j r i part y ∧
      Row.share (fun m => ¬ |y m - a| ≤ M * (1 / 340000)) ≤ (L * (1 / 360000) + g / 2 ^ 22) / γ := by
  have hL := hT.pos
  have hL2 : L < 2 ^ (128 : ℤ) := lt_of_le_of_lt hT.le fltMax_lt
  have hM0 : 0 < M := lt_of_lt_of_le (mul_pos (by linarith) (Fl.zp_pos (-110))) hMs
  have hM27 : M ≤ 2 ^ (127 : ℤ) := le_trans hM2 (by norm_num)
  obtain ⟨M', t1, t2⟩ := row_top (nAnt := nAnt) sq hT hf hlo hL1 hb hq h hF fuel hp hu ho dflt rows h1 h2 hr hk hM hMs hM27 hre him hmax
  obtain ⟨y, y1, y2⟩ := row_again (nAnt := nAnt) sq hT hf hg hγ hap (by linarith) hL1 hb hq h hF fuel hp hp' hu hu' ho ho' dflt rows rows'
    h1 h2 h' hr hi hM hMs hM2 t2 t1 hc hpart ha
  have hMM : M' * (1 / 350000) ≤ M * (1 / 340000) := by
    have := (abs_le.1 t1).2
    linarith
  have key : ∀ m, m < 2 ^ 31 → ¬ |y m - a| ≤ M * (1 / 340000) → ¬ |y m - a| ≤ M' * (1 / 350000) :=
    fun m _ hn hle => hn (le_trans hle hMM)
  exact ⟨y, y1, le_trans (Row.share_mono key) y2⟩

/-- The sample `3 - i` with the levels -1, 0 and 1, which is read as 3, and 0 or -3 for the imaginary part: the second time the
imaginary part is read as before for all but 1/300000 of the dither values. -/
example (packed packed' : Mem 8) (hl : packed.len = blockSize 1 2 2) (hl' : packed'.len = blockSize 1 2 2) (dflt : DataRow Cx)
    (rows rows' : Block Cx) (dith : Nat → Nat) (hd : dith 0 < 2 ^ 31 - 64) :
    ∃ d x a, writeBlock (encData .row id Row.smallTable 1 1 2 dith 5 ⟨1, fun _ => ⟨0, 1, ⟨1, fun _ => ⟨.fin 3, .fin (-1)⟩⟩⟩⟩) 2 1 2
        packed ⟨2, fun _ => 0⟩ = .ok d ∧
      readBlock (decData .row Row.smallTable 1 1 2 fun _ => (0, 1)) 2 1 2 1 dflt d ⟨2, fun _ => 0⟩ rows = .ok x ∧
      ((x.get 0).vis.get 0).im = .fin a ∧
      ∃ y, ReadBack id Row.smallTable 1 1 1 2 2 5 (fun _ => (0, 1)) ⟨1, fun r => ⟨0, 1, ⟨1, fun i => (x.get r).vis.get i⟩⟩⟩ packed'
          ⟨2, fun _ => 0⟩ ⟨2, fun _ => 0⟩ dflt rows' 1 0 0 Cx.im y ∧
        Row.share (fun m => ¬ |y m - a| ≤ 3 * (1 / 340000)) ≤ 1 / 300000 := by
  have hh : Holds 1 (1 * 1) (fun _ => (0, 1)) (fun _ _ => ⟨.fin 3, .fin (-1)⟩)
      ⟨1, fun _ => ⟨0, 1, ⟨1, fun _ => ⟨.fin 3, .fin (-1)⟩⟩⟩⟩ := ⟨rfl, fun _ _ => rfl, fun _ _ => rfl, fun _ _ _ _ => rfl⟩
  have hF : ∀ r i, r < 1 → i < 1 * 1 → FloatVis ((fun _ _ => ⟨.fin 3, .fin (-1)⟩ : Nat → Nat → Cx) r i) := by
    rintro r i - - a (h | h)
    · obtain rfl : 3 = a := by simpa using h
      exact ⟨by exact_mod_cast Fl.repr32_nat (n := 3) (by norm_num), by norm_num⟩
    · obtain rfl : -1 = a := by simpa using h
      refine ⟨?_, by norm_num⟩
      have := (Fl.repr32_nat (n := 1) (by norm_num)).neg
      simpa using this
  have hlev : FloatLevels Row.smallTable.n (fun i => (i : ℚ) - 1) := by
    intro i hi
    have hi' : i = 0 ∨ i = 1 ∨ i = 2 := by
      have : i < 3 := hi
      omega
    have h1 : Fl.Repr Fl.binary32 (1 : ℚ) := by simpa using Fl.repr32_nat (n := 1) (by norm_num)
    rcases hi' with rfl | rfl | rfl
    · exact ⟨by simpa using h1.neg, by norm_num⟩
    · exact ⟨by simpa using Fl.Repr.zero _, by norm_num⟩
    · exact ⟨by norm_num; exact h1, by norm_num⟩
  have hc : Counted (⟨.fin 3, .fin (-1)⟩ : Cx) 3 := ⟨3, rfl, Or.inl ⟨-1, rfl, by norm_num⟩⟩
  have hM : IsMax (1 * 1) (fun _ => (⟨.fin 3, .fin (-1)⟩ : Cx)) 3 :=
    ⟨by norm_num, fun i m _ h => (hc.unique h).ge, Or.inr ⟨0, by decide, hc⟩⟩
  obtain ⟨d, x, s, b1, b2, b3, b4, b5, b6⟩ := row_block (nAnt := 2) (nPol := 1) (nCh := 1) (bits := 2) id Row.smallTable_ok
    (Or.inl rfl) rfl (by decide) hh dith 5 hl (unpacked := ⟨2, fun _ => 0⟩) (out := ⟨2, fun _ => 0⟩) rfl rfl dflt rows
  have hacc := dither_accurate Row.smallTable_ok Fl.r32 1 (by norm_num) (by norm_num) (fun k _ => by push_cast; linarith)
  have hpart : ∀ {w : ℚ} {j : Nat}, Fl.Repr Fl.binary32 w → |w| ≤ 3 → j < 2 →
      encFn Fl.r32 Row.smallTable true (Fl.cast Fl.r32 (Fl.mul Fl.r64 (.fin w) (Row.rowFactor Fl.r64 (.fin 1) (.fin 3)))) (dith j) =
        some (s j) → ∃ a, Fl.cast Fl.r32 (Fl.mul Fl.r64 (Row.smallTable.level (s j))
          (Fl.cast Fl.r32 (Fl.div Fl.r64 (.fin 3) (.fin 1)))) = .fin a := by
    intro w j hw hw3 hj hs
    obtain ⟨z, z1, -, -⟩ := Row.component_float Row.smallTable_ok.pos (by simpa using Fl.repr32_nat (n := 1) (by norm_num))
      (by norm_num) hw hw3 (by exact_mod_cast Fl.repr32_nat (n := 3) (by norm_num)) (by norm_num) (by norm_num) hacc
      (Row.level_le Row.smallTable_ok (by norm_num)) hs (Row.smallTable_ok.decode_some (b3 j hj).1)
    exact ⟨z, z1⟩
  have h5 := b5 0 0 (by decide) (by decide)
  rw [maxFold_eq hM] at h5
  obtain ⟨p, hp⟩ := hpart (hF 0 0 (by decide) (by decide) 3 (Or.inl rfl)).1 (by norm_num) (by decide) h5.1
  obtain ⟨a, ha⟩ := hpart (hF 0 0 (by decide) (by decide) (-1) (Or.inr rfl)).1 (by norm_num) (by decide) h5.2
  have hx := b6 0 0 (by decide) (by decide)
  rw [b4 0 (by decide), maxFold_eq hM] at hx
  have hre : ((x.get 0).vis.get 0).re = .fin p := by
    rw [hx]
    exact hp
  have him : ((x.get 0).vis.get 0).im = .fin a := by
    rw [hx]
    exact ha
  obtain ⟨y, y1, y2⟩ := row_twice (nAnt := 2) (nPol := 1) (nCh := 1) (bits := 2) (g := 1) (γ := 1) id Row.smallTable_ok hlev
    (fun k _ => by push_cast; linarith) one_pos (fun k _ => by push_cast; linarith) (by norm_num) le_rfl
    (Or.inl rfl) rfl hh hF 5 hl hl' (unpacked' := ⟨2, fun _ => 0⟩) (out' := ⟨2, fun _ => 0⟩) rfl rfl rfl rfl dflt rows rows' b1 b2
    (data' := ⟨1, fun r => ⟨0, 1, ⟨1, fun i => (x.get r).vis.get i⟩⟩⟩)
    ⟨rfl, fun _ _ => rfl, fun _ _ => rfl, fun _ _ _ _ => rfl⟩ (r := 0) (k := 0) (by decide) (by decide) hM (by norm_num) (by norm_num)
    rfl rfl (Or.inl ⟨rfl, hd⟩) (i := 0) (by decide) (m := max |p| |a|) ⟨p, hre, Or.inl ⟨a, him, rfl⟩⟩ (Or.inr ⟨rfl, rfl⟩) him
  exact ⟨d, x, a, b1, b2, him, y, y1, le_trans y2 (by norm_num)⟩

end Dysco.Layout
