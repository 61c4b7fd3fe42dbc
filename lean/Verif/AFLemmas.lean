import Verif.AFModel
import Verif.NormSpec

/-! # Helper lemmas for the antenna-frequency encoder -/

namespace Dysco.AF
open TimeBlock

variable {nR n nPol nCh nAnt : Nat} {A : Nat → Nat × Nat} {D : Nat → Nat → Cx} {data : Block Cx}

/-! ## Measurements -/

theorem add_exact (a b : ℚ) : Fl.add Fl.exact (.fin a) (.fin b) = .fin (a + b) := rfl

theorem mul_exact (a b : ℚ) : Fl.mul Fl.exact (.fin a) (.fin b) = .fin (a * b) := rfl

theorem div_exact (a : ℚ) {b : ℚ} (hb : b ≠ 0) : Fl.div Fl.exact (.fin a) (.fin b) = .fin (a / b) := by
  simp [Fl.div, hb, Fl.exact]

/-- Measurement of `v 0 … v (k-1)`. -/
def measFold (RD : ℚ → Fl) (v : Nat → Cx) : Nat → Nat × Fl
  | 0 => (0, .fin 0)
  | k + 1 => includeVis RD (measFold RD v k) (v k)

theorem channelMeas_spec {RD : ℚ → Fl} (h : Holds nR n A D data) :
    ∃ meas, channelMeas RD n data = some meas ∧ meas.len = n ∧
      ∀ i, i < n → meas.get i = measFold RD (fun r => D r i) nR := by
  obtain ⟨meas, e, h1, h2⟩ := forRange_inv data.len (fun r meas =>
    forRange n (fun i (meas : Buf (Nat × Fl)) =>
      (rdVis data r i).bind fun v => (meas.rd i).bind fun m => meas.wr i (includeVis RD m v)) meas)
    ⟨n, fun _ => (0, .fin 0)⟩
    (fun r meas => meas.len = n ∧ ∀ i, i < n → meas.get i = measFold RD (fun r => D r i) r)
    ⟨rfl, fun _ _ => rfl⟩ (by
      rintro r meas hr ⟨h1, h2⟩
      rw [h.rows] at hr
      obtain ⟨meas', e, g1, g2, _⟩ := forRange_inv n (fun i (meas : Buf (Nat × Fl)) =>
        (rdVis data r i).bind fun v => (meas.rd i).bind fun m => meas.wr i (includeVis RD m v)) meas
        (fun k meas' => meas'.len = n ∧
          (∀ i, i < k → meas'.get i = measFold RD (fun r => D r i) (r + 1)) ∧
          ∀ i, k ≤ i → meas'.get i = meas.get i)
        ⟨h1, fun i hi => by omega, fun _ _ => rfl⟩ (by
          rintro k t hk ⟨q1, q2, q3⟩
          refine ⟨⟨t.len, fun j => if j = k then includeVis RD (t.get k) (D r k) else t.get j⟩, ?_, q1,
            ?_, ?_⟩
          · rw [rdVis_some h hr hk, Option.bind_some, Buf.rd_some (by omega), Option.bind_some,
              Buf.wr_some (by omega)]
          · intro i hi
            by_cases hik : i = k
            · simp only [hik, if_true]
              rw [q3 k (Nat.le_refl _), h2 k hk]
              rfl
            · simp only [hik, if_false]
              exact q2 i (by omega)
          · intro i hi
            have hik : i ≠ k := by omega
            simp only [hik, if_false]
            exact q3 i (by omega))
      exact ⟨meas', e, g1, g2⟩)
  rw [h.rows] at h2
  exact ⟨meas, e, h1, h2⟩

/-- A visibility without NaN or infinity. -/
def FullyFinite (v : Cx) : Prop := ∃ x y, v = ⟨.fin x, .fin y⟩

theorem fullyFinite_iff (v : Cx) : (v.re.isFinite && v.im.isFinite) = true ↔ FullyFinite v := by
  obtain ⟨re, im⟩ := v
  constructor
  · intro h
    cases re <;> cases im <;> simp [Fl.isFinite] at h
    exact ⟨_, _, rfl⟩
  · rintro ⟨x, y, h⟩
    rw [h]
    rfl

/-- The measurement in exact arithmetic. -/
theorem measFold_exact (v : Nat → Cx) (k : Nat) :
    ∃ s, (measFold Fl.exact v k).2 = .fin s ∧ 0 ≤ s ∧
      ((measFold Fl.exact v k).1 = 0 → s = 0) ∧
      ((measFold Fl.exact v k).1 = 0 ↔ ∀ r, r < k → ¬ FullyFinite (v r)) ∧
      (s = 0 → ∀ r x y, r < k → v r = ⟨.fin x, .fin y⟩ → x = 0 ∧ y = 0) := by
  induction k with
  | zero => exact ⟨0, rfl, le_refl _, fun _ => rfl, by simp [measFold], fun _ r _ _ hr => by omega⟩
  | succ k ih =>
    obtain ⟨s, h1, h2, h3, h4, h5⟩ := ih
    by_cases hf : FullyFinite (v k)
    · obtain ⟨x, y, hv⟩ := hf
      have e : measFold Fl.exact v (k + 1) =
          ((measFold Fl.exact v k).1 + 1, .fin (s + (x * x + y * y))) := by
        simp [measFold, includeVis, hv, Fl.isFinite, h1, mul_exact, add_exact]
      have hx := mul_self_nonneg x
      have hy := mul_self_nonneg y
      refine ⟨s + (x * x + y * y), by rw [e], by linarith, by rw [e]; simp, ?_, ?_⟩
      · rw [e]
        simp only [Nat.add_eq_zero_iff, one_ne_zero, and_false, false_iff, not_forall]
        exact ⟨k, by omega, fun hn => hn ⟨x, y, hv⟩⟩
      · intro h0 r x' y' hr hv'
        rcases Nat.lt_or_eq_of_le (Nat.le_of_lt_succ hr) with h | h
        · exact h5 (by linarith) r x' y' h hv'
        · rw [h, hv] at hv'
          simp only [Cx.mk.injEq, Fl.fin.injEq] at hv'
          rw [← hv'.1, ← hv'.2]
          exact ⟨mul_self_eq_zero.mp (by linarith), mul_self_eq_zero.mp (by linarith)⟩
    · have e : measFold Fl.exact v (k + 1) = measFold Fl.exact v k := by
        simp only [measFold, includeVis]
        rw [if_neg (fun h => hf ((fullyFinite_iff _).mp h))]
      rw [e]
      refine ⟨s, h1, h2, h3, ?_, ?_⟩
      · rw [h4]
        constructor
        · intro h r hr
          rcases Nat.lt_or_eq_of_le (Nat.le_of_lt_succ hr) with h' | h'
          · exact h r h'
          · rw [h']; exact hf
        · exact fun h r hr => h r (by omega)
      · intro h0 r x' y' hr hv'
        rcases Nat.lt_or_eq_of_le (Nat.le_of_lt_succ hr) with h | h
        · exact h5 h0 r x' y' h hv'
        · rw [h] at hv'
          exact absurd ⟨x', y', hv'⟩ hf

/-- What is used of `std::sqrt`. -/
structure SqrtLike (sq : Fl → Fl) : Prop where
  zero : sq (.fin 0) = .fin 0
  pos : ∀ x, 0 < x → ∃ y, 0 < y ∧ sq (.fin x) = .fin y
  nan : sq .nan = .nan

/-- The RMS in exact arithmetic: NaN if there is no finite visibility, otherwise a number that is only
zero if all finite visibilities are. -/
theorem rms_exact {sq : Fl → Fl} (hsq : SqrtLike sq) (v : Nat → Cx) (k : Nat) :
    ((∀ r, r < k → ¬ FullyFinite (v r)) ∧ rms Fl.exact sq (measFold Fl.exact v k) = .nan) ∨
    ((∃ r, r < k ∧ FullyFinite (v r)) ∧
      ∃ x, rms Fl.exact sq (measFold Fl.exact v k) = .fin x ∧ 0 ≤ x ∧
        (x = 0 → ∀ r x y, r < k → v r = ⟨.fin x, .fin y⟩ → x = 0 ∧ y = 0)) := by
  obtain ⟨s, h1, h2, h3, h4, h5⟩ := measFold_exact v k
  by_cases hc : (measFold Fl.exact v k).1 = 0
  · refine Or.inl ⟨h4.mp hc, ?_⟩
    unfold rms
    rw [h1, hc, h3 hc]
    simp [Fl.div, hsq.nan]
  · right
    constructor
    · by_contra hn
      apply hc
      rw [h4]
      intro r hr hf
      exact hn ⟨r, hr, hf⟩
    · have hcpos : (0 : ℚ) < ((measFold Fl.exact v k).1 * 2 : ℕ) := by
        have : 0 < (measFold Fl.exact v k).1 := Nat.pos_of_ne_zero hc
        exact_mod_cast (by omega : 0 < (measFold Fl.exact v k).1 * 2)
      unfold rms
      rw [h1]
      rw [div_exact _ hcpos.ne']
      rcases h2.eq_or_lt with h0 | hpos
      · refine ⟨0, by rw [← h0, zero_div, hsq.zero], le_refl _, fun _ => h5 h0.symm⟩
      · obtain ⟨y, hy, e⟩ := hsq.pos (s / ((measFold Fl.exact v k).1 * 2 : ℕ)) (div_pos hpos hcpos)
        exact ⟨y, e, hy.le, fun h => absurd h hy.ne'⟩

theorem normalizeChannels_spec {RF RD : ℚ → Fl} {sq : Fl → Fl} (h : Holds nR n A D data)
    (meas : Buf (Nat × Fl)) (hm : meas.len = n) (metaB : Buf Fl) (hb : n ≤ metaB.len) :
    ∃ D' data' metaB', normalizeChannels RF RD sq n meas (data, metaB) = some (data', metaB') ∧
      Holds nR n A D' data' ∧
      (∀ r i, r < nR → i < n → D' r i = divRms RD (rms RD sq (meas.get i)) (D r i)) ∧
      metaB'.len = metaB.len ∧
      (∀ i, 0 < nR → i < n → metaB'.get i = Fl.cast RF (rms RD sq (meas.get i))) ∧
      (∀ j, n ≤ j → metaB'.get j = metaB.get j) := by
  obtain ⟨st, e, D', h1, h2, h3, h4, h5, h6⟩ := forRange_inv data.len (fun r st =>
    forRange n (fun i (st : Block Cx × Buf Fl) =>
      (meas.rd i).bind fun m =>
      (updVis st.1 r i (divRms RD (rms RD sq m))).bind fun data =>
      (st.2.wr i (Fl.cast RF (rms RD sq m))).map fun metaB => (data, metaB)) st) (data, metaB)
    (fun k st => ∃ D', Holds nR n A D' st.1 ∧
      (∀ r i, r < k → i < n → D' r i = divRms RD (rms RD sq (meas.get i)) (D r i)) ∧
      (∀ r i, k ≤ r → D' r i = D r i) ∧ st.2.len = metaB.len ∧
      (∀ i, 0 < k → i < n → st.2.get i = Fl.cast RF (rms RD sq (meas.get i))) ∧
      (∀ j, n ≤ j → st.2.get j = metaB.get j))
    ⟨D, h, fun r _ hr => by omega, fun _ _ _ => rfl, rfl, fun _ hr => by omega, fun _ _ => rfl⟩ (by
      rintro r st hr ⟨D1, h1, h2, h3, h4, h5, h6⟩
      rw [h.rows] at hr
      obtain ⟨st', e, D2, g1, g2, g3, g4, g5, g6⟩ := forRange_inv n
        (fun i (st : Block Cx × Buf Fl) =>
          (meas.rd i).bind fun m =>
          (updVis st.1 r i (divRms RD (rms RD sq m))).bind fun data =>
          (st.2.wr i (Fl.cast RF (rms RD sq m))).map fun metaB => (data, metaB)) st
        (fun k st' => ∃ D2, Holds nR n A D2 st'.1 ∧
          (∀ i, i < k → D2 r i = divRms RD (rms RD sq (meas.get i)) (D1 r i)) ∧
          (∀ r' i, (r' ≠ r ∨ k ≤ i) → D2 r' i = D1 r' i) ∧ st'.2.len = metaB.len ∧
          (∀ i, i < k → st'.2.get i = Fl.cast RF (rms RD sq (meas.get i))) ∧
          (∀ j, k ≤ j → st'.2.get j = st.2.get j))
        ⟨D1, h1, fun i hi => by omega, fun _ _ _ => rfl, h4, fun i hi => by omega, fun _ _ => rfl⟩ (by
          rintro k st1 hk ⟨D2, g1, g2, g3, g4, g5, g6⟩
          obtain ⟨data2, e2, g7⟩ := updVis_some g1 hr hk (divRms RD (rms RD sq (meas.get k)))
          refine ⟨(data2, ⟨st1.2.len, fun j => if j = k then Fl.cast RF (rms RD sq (meas.get k))
            else st1.2.get j⟩), ?_, _, g7, ?_, ?_, g4, ?_, ?_⟩
          · rw [Buf.rd_some (by omega), Option.bind_some, e2, Option.bind_some,
              Buf.wr_some (by omega)]
            rfl
          · intro i hi
            by_cases hik : i = k
            · subst hik
              simp only [true_and, if_true]
              rw [g3 r i (Or.inr (Nat.le_refl _))]
            · simp only [hik, and_false, if_false]
              exact g2 i (by omega)
          · intro r' i hor
            have : ¬ (r' = r ∧ i = k) := by omega
            simp only [this, if_false]
            exact g3 r' i (by omega)
          · intro i hi
            by_cases hik : i = k
            · simp [hik]
            · simp only [hik, if_false]
              exact g5 i (by omega)
          · intro j hj
            have : j ≠ k := by omega
            simp only [this, if_false]
            exact g6 j (by omega))
      refine ⟨st', e, D2, g1, ?_, ?_, g4, ?_, ?_⟩
      · intro r' i hr' hi
        by_cases e' : r' = r
        · subst e'
          rw [g2 i hi, h3 r' i (Nat.le_refl _)]
        · rw [g3 r' i (Or.inl e'), h2 r' i (by omega) hi]
      · intro r' i hr'
        rw [g3 r' i (by omega), h3 r' i (by omega)]
      · intro i _ hi
        exact g5 i hi
      · intro j hj
        rw [g6 j hj, h6 j hj])
  rw [h.rows] at h2 h5
  exact ⟨D', st.1, st.2, e, h1, h2, h4, h5, h6⟩

/-! ## Antenna RMS -/

/-- All antennas are below the antenna count. -/
def AntennasBelow (nR nAnt : Nat) (A : Nat → Nat × Nat) : Prop :=
  ∀ r, r < nR → (A r).1 < nAnt ∧ (A r).2 < nAnt

theorem baselineIndex_lt {a b : Nat} (ha : a < nAnt) (hb : b < nAnt) :
    baselineIndex nAnt a b < nAnt * nAnt := by
  unfold baselineIndex
  exact flat_lt (by omega) (by omega)

theorem chan_lt {c p : Nat} (hc : c < nCh) (hp : p < nPol) : c * nPol + p < nPol * nCh := by
  rw [Nat.mul_comm nPol]; exact flat_lt hc hp

/-- The baseline measurements never leave the matrix; in exact arithmetic they hold finite
non-negative sums. -/
theorem baselineMeas_spec {RD : ℚ → Fl} {P : Nat × Fl → Prop} (hP0 : P (0, .fin 0))
    (hP : ∀ m v, P m → P (includeVis RD m v)) (h : Holds nR (nPol * nCh) A D data)
    (hA : AntennasBelow nR nAnt A) {p : Nat} (hp : p < nPol) :
    ∃ meas, baselineMeas RD nPol nCh nAnt p data = some meas ∧ meas.len = nAnt * nAnt ∧
      ∀ j, P (meas.get j) := by
  obtain ⟨meas, e, h1, h2⟩ := forRange_inv data.len (fun r meas => (data.rd r).bind fun row =>
    if row.antenna1 = row.antenna2 then some meas else
      forRange nCh (fun ch (meas : Buf (Nat × Fl)) =>
        (row.vis.rd (ch * nPol + p)).bind fun v =>
        (meas.rd (baselineIndex nAnt row.antenna1 row.antenna2)).bind fun m =>
        meas.wr (baselineIndex nAnt row.antenna1 row.antenna2) (includeVis RD m v)) meas)
    ⟨nAnt * nAnt, fun _ => (0, .fin 0)⟩
    (fun _ meas => meas.len = nAnt * nAnt ∧ ∀ j, P (meas.get j)) ⟨rfl, fun _ => hP0⟩ (by
      rintro r meas hr ⟨h1, h2⟩
      have hr' : r < nR := by rw [← h.rows]; exact hr
      rw [Buf.rd_some hr, Option.bind_some]
      by_cases hc : (data.get r).antenna1 = (data.get r).antenna2
      · rw [if_pos hc]; exact ⟨meas, rfl, h1, h2⟩
      · rw [if_neg hc]
        have ha := h.ant r hr'
        have hb := hA r hr'
        rw [← ha] at hb
        have hidx := baselineIndex_lt hb.1 hb.2
        simp only at hidx
        obtain ⟨t, e, g⟩ := forRange_inv nCh (fun ch (meas : Buf (Nat × Fl)) =>
          ((data.get r).vis.rd (ch * nPol + p)).bind fun v =>
          (meas.rd (baselineIndex nAnt (data.get r).antenna1 (data.get r).antenna2)).bind fun m =>
          meas.wr (baselineIndex nAnt (data.get r).antenna1 (data.get r).antenna2)
            (includeVis RD m v)) meas
          (fun _ meas => meas.len = nAnt * nAnt ∧ ∀ j, P (meas.get j)) ⟨h1, h2⟩ (by
            rintro ch t hch ⟨g1, g2⟩
            rw [Buf.rd_some (by rw [h.len r hr']; exact chan_lt hch hp), Option.bind_some,
              Buf.rd_some (by omega), Option.bind_some, Buf.wr_some (by omega)]
            refine ⟨_, rfl, g1, ?_⟩
            intro j
            simp only
            split
            · exact hP _ _ (g2 _)
            · exact g2 j)
        exact ⟨t, e, g⟩)
  exact ⟨meas, e, h1, h2⟩

/-- A finite non-negative number. -/
def NonNeg (x : Fl) : Prop := ∃ q, x = .fin q ∧ 0 ≤ q

/-- `AllNonNeg`: `nAnt` finite non-negative numbers. -/
def AllNonNeg (nAnt : Nat) (b : Buf Fl) : Prop := b.len = nAnt ∧ ∀ a, a < nAnt → NonNeg (b.get a)

section
variable {mat : Nat → Nat → Option Fl}

/-- The matrix: every element exists and is either not finite or non-negative. -/
def MatOk (nAnt : Nat) (mat : Nat → Nat → Option Fl) : Prop :=
  ∀ i j, i < nAnt → j < nAnt → ∃ x, mat i j = some x ∧ (x.isFinite = true → NonNeg x)

theorem nextSums_exact (hM : MatOk nAnt mat) {ant : Buf Fl} (ha : AllNonNeg nAnt ant) {i : Nat}
    (hi : i < nAnt) : ∃ s, nextSums Fl.exact nAnt mat ant i = some s ∧ NonNeg s.1 ∧ NonNeg s.2 := by
  obtain ⟨s, e, h⟩ := forRange_inv nAnt (fun j (s : Fl × Fl) => (ant.rd j).bind fun w =>
    if i ≠ j ∧ Fl.eq w (.fin 0) = false then
      (mat i j).map fun x => if x.isFinite then (Fl.add Fl.exact s.1 x, Fl.add Fl.exact s.2 w) else s
    else some s) (.fin 0, .fin 0) (fun _ s => NonNeg s.1 ∧ NonNeg s.2)
    ⟨⟨0, rfl, le_refl _⟩, ⟨0, rfl, le_refl _⟩⟩ (by
      rintro j s hj ⟨h1, h2⟩
      rw [Buf.rd_some (by rw [ha.1]; exact hj), Option.bind_some]
      split
      · obtain ⟨x, ex, hx⟩ := hM i j hi hj
        rw [ex]
        refine ⟨_, rfl, ?_⟩
        simp only
        split
        · next hf =>
          obtain ⟨q, rfl, hq⟩ := hx hf
          obtain ⟨q1, e1, hq1⟩ := h1
          obtain ⟨q2, e2, hq2⟩ := h2
          obtain ⟨w, ew, hw⟩ := ha.2 j hj
          rw [e1, e2, ew]
          exact ⟨⟨q1 + q, rfl, by linarith⟩, ⟨q2 + w, rfl, by linarith⟩⟩
        · exact ⟨h1, h2⟩
      · exact ⟨s, rfl, h1, h2⟩)
  exact ⟨s, e, h⟩

theorem nextRms_exact {s : Fl × Fl} (h1 : NonNeg s.1) (h2 : NonNeg s.2) :
    NonNeg (nextRms Fl.exact s) := by
  obtain ⟨q1, e1, hq1⟩ := h1
  obtain ⟨q2, e2, hq2⟩ := h2
  unfold nextRms
  rw [e1, e2]
  by_cases h0 : q2 = 0
  · simp only [Fl.eq, h0, decide_true, if_true]
    exact ⟨0, rfl, le_refl _⟩
  · simp only [Fl.eq, h0, decide_false, Bool.false_eq_true, if_false, Fl.div, Fl.exact]
    exact ⟨q1 / q2, rfl, div_nonneg hq1 hq2⟩

theorem rmsIterate_exact (hM : MatOk nAnt mat) {st : RmsState} (ha : AllNonNeg nAnt st.ant) :
    ∃ st', rmsIterate Fl.exact nAnt mat st = some st' ∧ AllNonNeg nAnt st'.ant := by
  obtain ⟨next, e1, n1⟩ := forRange_inv nAnt
    (fun i (next : Buf Fl) => (nextSums Fl.exact nAnt mat st.ant i).bind fun s =>
      next.wr i (nextRms Fl.exact s)) ⟨nAnt, fun _ => .fin 0⟩
    (fun _ b => AllNonNeg nAnt b) ⟨rfl, fun _ _ => ⟨0, rfl, le_refl _⟩⟩ (by
      rintro i b hi ⟨h1, h2⟩
      obtain ⟨s, es, p1, p2⟩ := nextSums_exact hM ha hi
      rw [es, Option.bind_some, Buf.wr_some (by omega)]
      refine ⟨_, rfl, h1, ?_⟩
      intro a hlt
      simp only
      split
      · exact nextRms_exact p1 p2
      · exact h2 a hlt)
  obtain ⟨s, e2, n2, _⟩ := forRange_inv nAnt
    (fun i (s : Buf Fl × Fl) => (next.rd i).bind fun x => (s.1.rd i).bind fun old =>
      (s.1.wr i (Fl.add Fl.exact (Fl.mul Fl.exact x (Fl.exact (4 / 5)))
        (Fl.mul Fl.exact old (Fl.exact (1 / 5))))).map fun ant =>
        (ant, Fl.stdMax (Fl.add Fl.exact (Fl.mul Fl.exact x (Fl.exact (4 / 5)))
          (Fl.mul Fl.exact old (Fl.exact (1 / 5)))) s.2)) (st.ant, .fin 0)
    (fun _ s => AllNonNeg nAnt s.1 ∧ True) ⟨ha, trivial⟩ (by
      rintro i s hi ⟨⟨h1, h2⟩, _⟩
      obtain ⟨x, ex, hx⟩ := n1.2 i hi
      obtain ⟨old, eo, ho⟩ := h2 i hi
      rw [Buf.rd_some (by rw [n1.1]; exact hi), Option.bind_some, Buf.rd_some (by omega),
        Option.bind_some, Buf.wr_some (by omega), ex, eo]
      refine ⟨_, rfl, ⟨h1, ?_⟩, trivial⟩
      intro a hlt
      simp only
      split
      · exact ⟨x * (4 / 5) + old * (1 / 5), rfl, by linarith⟩
      · exact h2 a hlt)
  obtain ⟨t, e3, n3⟩ := forRange_inv nAnt
    (fun i (t : RmsState) => (t.ant.rd i).bind fun x => (next.rd i).bind fun nx =>
      (t.ant.wr i (if Fl.lt x (Fl.mul Fl.exact s.2 (Fl.exact (1 / 100000))) then .fin 0 else x)).map
        fun ant => (⟨ant, Fl.stdMax t.precision (Fl.div Fl.exact (Fl.abs (Fl.sub Fl.exact
          (if Fl.lt x (Fl.mul Fl.exact s.2 (Fl.exact (1 / 100000))) then .fin 0 else x) nx)) s.2)⟩
          : RmsState))
    ⟨s.1, .fin 0⟩ (fun _ t => AllNonNeg nAnt t.ant) n2 (by
      rintro i t hi ⟨h1, h2⟩
      rw [Buf.rd_some (by omega), Option.bind_some, Buf.rd_some (by rw [n1.1]; exact hi),
        Option.bind_some, Buf.wr_some (by omega)]
      refine ⟨_, rfl, h1, ?_⟩
      intro a hlt
      simp only
      split
      · split
        · exact ⟨0, rfl, le_refl _⟩
        · exact h2 i hi
      · exact h2 a hlt)
  refine ⟨t, ?_, n3⟩
  unfold rmsIterate
  rw [e1, Option.bind_some, e2, Option.bind_some]
  exact e3

end

/-- In exact arithmetic the antenna RMS values are finite and non-negative. -/
theorem antennaRms_exact {sq : Fl → Fl} (hsq : SqrtLike sq) (h : Holds nR (nPol * nCh) A D data)
    (hA : AntennasBelow nR nAnt A) {p : Nat} (hp : p < nPol) :
    ∃ ant, antennaRms Fl.exact sq nPol nCh nAnt p data = some ant ∧ AllNonNeg nAnt ant := by
  obtain ⟨meas, e1, l1, m1⟩ := baselineMeas_spec (RD := Fl.exact) (P := fun m => NonNeg m.2 ∧
      (m.1 = 0 → m.2 = .fin 0)) ⟨⟨0, rfl, le_refl _⟩, fun _ => rfl⟩ (by
    rintro m v ⟨⟨q, e, hq⟩, h2⟩
    unfold includeVis
    by_cases hf : (v.re.isFinite && v.im.isFinite) = true
    · rw [if_pos hf]
      obtain ⟨x, y, rfl⟩ := (fullyFinite_iff v).mp hf
      refine ⟨⟨q + (x * x + y * y), ?_, ?_⟩, fun h => absurd h (Nat.succ_ne_zero _)⟩
      · simp only [e, Fl.mul, Fl.add, Fl.exact]
      · have := mul_self_nonneg x
        have := mul_self_nonneg y
        linarith
    · rw [if_neg hf]
      exact ⟨⟨q, e, hq⟩, h2⟩) h hA hp
  have hM : MatOk nAnt (rmsMatrix Fl.exact sq nAnt meas) := by
    intro i j hi hj
    have hidx := baselineIndex_lt hi hj
    obtain ⟨⟨q, e, hq⟩, h2⟩ := m1 (baselineIndex nAnt i j)
    unfold rmsMatrix
    rw [Buf.rd_some (by omega)]
    refine ⟨_, rfl, ?_⟩
    intro hf
    by_cases hc : (meas.get (baselineIndex nAnt i j)).1 = 0
    · unfold rms at hf
      rw [h2 hc, hc] at hf
      simp [Fl.div, hsq.nan, Fl.isFinite] at hf
    · have hcpos : (0 : ℚ) < ((meas.get (baselineIndex nAnt i j)).1 * 2 : ℕ) := by
        have : 0 < (meas.get (baselineIndex nAnt i j)).1 := Nat.pos_of_ne_zero hc
        exact_mod_cast (by omega : 0 < (meas.get (baselineIndex nAnt i j)).1 * 2)
      unfold rms
      rw [e]
      rw [div_exact _ hcpos.ne']
      rcases hq.eq_or_lt with h0 | hpos
      · exact ⟨0, by rw [← h0, zero_div, hsq.zero], le_refl _⟩
      · obtain ⟨y, hy, e⟩ := hsq.pos _ (div_pos hpos hcpos)
        exact ⟨y, e, hy.le⟩
  obtain ⟨st, e2, n2⟩ := forRange_inv 100 (fun _ (st : RmsState) =>
    if Fl.lt (Fl.exact (1 / 1000000)) st.precision then
      rmsIterate Fl.exact nAnt (rmsMatrix Fl.exact sq nAnt meas) st
    else some st) ⟨⟨nAnt, fun _ => .fin 1⟩, .fin 1⟩ (fun _ st => AllNonNeg nAnt st.ant)
    ⟨rfl, fun _ _ => ⟨1, rfl, by norm_num⟩⟩ (by
      intro i st _ h1
      split
      · exact rmsIterate_exact hM h1
      · exact ⟨st, rfl, h1⟩)
  refine ⟨st.ant, ?_, n2⟩
  unfold antennaRms
  rw [e1, Option.bind_some, e2]
  rfl

/-- One polarisation of the antenna normalisation, given the antenna values. -/
theorem normalizeAntennas_spec {RF RD : ℚ → Fl} {sq : Fl → Fl} (h : Holds nR (nPol * nCh) A D data)
    (hA : AntennasBelow nR nAnt A) {p : Nat} (hp : p < nPol) {ant : Buf Fl} (hl : ant.len = nAnt)
    (he : antennaRms RD sq nPol nCh nAnt p data = some ant) (metaB : Buf Fl)
    (hb : nPol * nCh + nAnt * nPol ≤ metaB.len) :
    ∃ D' data' metaB', normalizeAntennas RF RD sq nPol nCh nAnt p (data, metaB) = some (data', metaB') ∧
      Holds nR (nPol * nCh) A D' data' ∧
      (∀ r c, r < nR → c < nCh → D' r (c * nPol + p) = (D r (c * nPol + p)).scale RD
        (antFactor RD (ant.get (A r).1) (ant.get (A r).2))) ∧
      (∀ r c p', p' < nPol → p' ≠ p → D' r (c * nPol + p') = D r (c * nPol + p')) ∧
      metaB'.len = metaB.len ∧
      (∀ a, a < nAnt → metaB'.get (nPol * nCh + (nAnt * p + a)) = Fl.cast RF (ant.get a)) ∧
      (∀ j, (∀ a, a < nAnt → j ≠ nPol * nCh + (nAnt * p + a)) → metaB'.get j = metaB.get j) := by
  obtain ⟨data', e1, D', h1, h2, h3, h4⟩ := forRange_inv data.len
    (fun r data1 => (data.rd r).bind fun row =>
      (ant.rd row.antenna1).bind fun r1 => (ant.rd row.antenna2).bind fun r2 =>
      forRange nCh (fun ch data => updVis data r (ch * nPol + p) fun v =>
        v.scale RD (antFactor RD r1 r2)) data1) data
    (fun k data' => ∃ D', Holds nR (nPol * nCh) A D' data' ∧
      (∀ r c, r < k → c < nCh → D' r (c * nPol + p) = (D r (c * nPol + p)).scale RD
        (antFactor RD (ant.get (A r).1) (ant.get (A r).2))) ∧
      (∀ r c p', p' < nPol → p' ≠ p → D' r (c * nPol + p') = D r (c * nPol + p')) ∧
      (∀ r i, k ≤ r → D' r i = D r i))
    ⟨D, h, fun r _ hr => by omega, fun _ _ _ _ _ => rfl, fun _ _ _ => rfl⟩ (by
      rintro r data1 hr ⟨D1, g1, g2, g3, g4⟩
      have hr' : r < nR := by rw [← h.rows]; exact hr
      have ha := h.ant r hr'
      have hb := hA r hr'
      rw [← ha] at hb
      simp only at hb
      obtain ⟨D2, data2, e2, q1, q2, q3⟩ := forRange_upd (nR := nR) (n := nPol * nCh) nCh (fun _ => r)
        (fun ch => ch * nPol + p)
        (fun v => v.scale RD (antFactor RD (ant.get (data.get r).antenna1)
          (ant.get (data.get r).antenna2))) g1 (fun _ _ => hr') (fun ch hch => chan_lt hch hp)
        (fun k k' _ _ _ he => (flat_inj hp hp he).1)
      rw [Buf.rd_some hr, Option.bind_some, Buf.rd_some (by omega), Option.bind_some,
        Buf.rd_some (by omega), Option.bind_some]
      refine ⟨data2, e2, D2, q1, ?_, ?_, ?_⟩
      · intro r' c hr1 hc
        by_cases er : r' = r
        · subst er
          rw [q2 c hc, g4 r' _ (Nat.le_refl _), ← ha]
        · rw [q3 r' _ (fun k _ hk => er hk.1.symm), g2 r' c (by omega) hc]
      · intro r' c p' hp' hne
        rw [q3 r' _ (fun k _ hk => hne (flat_inj hp' hp hk.2.symm).2), g3 r' c p' hp' hne]
      · intro r' i hr1
        rw [q3 r' i (fun k _ hk => by have := hk.1; omega), g4 r' i (by omega)])
  obtain ⟨metaB', e3, m1, m2, m3⟩ := forRange_inv nAnt (fun a (metaB : Buf Fl) =>
      (ant.rd a).bind fun x => metaB.wr (nPol * nCh + (nAnt * p + a)) (Fl.cast RF x)) metaB
    (fun k metaB' => metaB'.len = metaB.len ∧
      (∀ a, a < k → metaB'.get (nPol * nCh + (nAnt * p + a)) = Fl.cast RF (ant.get a)) ∧
      (∀ j, (∀ a, a < k → j ≠ nPol * nCh + (nAnt * p + a)) → metaB'.get j = metaB.get j))
    ⟨rfl, fun a ha => by omega, fun _ _ => rfl⟩ (by
      rintro k m hk ⟨m1, m2, m3⟩
      have hidx : nAnt * p + k < nAnt * nPol := by
        have : p * nAnt + k < nPol * nAnt := flat_lt hp hk
        rw [Nat.mul_comm nAnt p, Nat.mul_comm nAnt nPol]
        exact this
      rw [Buf.rd_some (by omega), Option.bind_some, Buf.wr_some (by omega)]
      refine ⟨_, rfl, m1, ?_, ?_⟩
      · intro a ha
        by_cases hak : a = k
        · simp [hak]
        · have : ¬ (nPol * nCh + (nAnt * p + a) = nPol * nCh + (nAnt * p + k)) := by omega
          simp only [this, if_false]
          exact m2 a (by omega)
      · intro j hj
        have : j ≠ nPol * nCh + (nAnt * p + k) := hj k (by omega)
        simp only [this, if_false]
        exact m3 j (fun a ha => hj a (by omega)))
  rw [h.rows] at h2
  refine ⟨D', data', metaB', ?_, h1, h2, h3, m1, m2, m3⟩
  unfold normalizeAntennas
  simp only
  rw [he, Option.bind_some, e1, Option.bind_some, e3]
  rfl

/-! ## Fitting: elementary operations -/

theorem changeChannel_spec {RF RD : ℚ → Fl} (h : Holds nR n A D data) (metaB : Buf Fl) {i : Nat}
    (hi : i < n) (hb : n ≤ metaB.len) (f : Fl) :
    ∃ D' data', changeChannel RF RD (data, metaB) i f = some (data',
        ⟨metaB.len, fun j => if j = i then Fl.cast RF (Fl.div RD (metaB.get i) f) else metaB.get j⟩) ∧
      Holds nR n A D' data' ∧ (∀ r, r < nR → D' r i = (D r i).scale RD f) ∧
      (∀ r j, j ≠ i → D' r j = D r j) := by
  obtain ⟨D', data', e, h1, h2, h3⟩ := forRange_upd (nR := nR) (n := n) data.len (fun r => r)
    (fun _ => i) (fun v => v.scale RD f) h (fun r hr => by rw [← h.rows]; exact hr) (fun _ _ => hi)
    (fun _ _ _ _ he _ => he)
  refine ⟨D', data', ?_, h1, fun r hr => h2 r (by rw [h.rows]; exact hr),
    fun r j hj => h3 r j (fun k _ hk => hj hk.2.symm)⟩
  unfold changeChannel
  simp only
  rw [Buf.rd_some (by omega), Option.bind_some, Buf.wr_some (by omega), Option.bind_some, e]
  rfl

/-- Number of times antenna `a` occurs in the pair. -/
def cnt (ab : Nat × Nat) (a : Nat) : Nat := (if ab.1 = a then 1 else 0) + (if ab.2 = a then 1 else 0)

/-- Scaling a number of times. -/
def scaleN (RD : ℚ → Fl) (f : Fl) : Nat → Cx → Cx
  | 0, v => v
  | k + 1, v => (scaleN RD f k v).scale RD f

theorem changeAntenna_spec {RF RD : ℚ → Fl} (h : Holds nR (nPol * nCh) A D data) (metaB : Buf Fl)
    {a p : Nat} (ha : a < nAnt) (hp : p < nPol) (hb : nPol * nCh + nAnt * nPol ≤ metaB.len) (f : Fl) :
    ∃ D' data', changeAntenna RF RD nPol nCh nAnt (data, metaB) a p f = some (data',
        ⟨metaB.len, fun j => if j = nPol * nCh + (nAnt * p + a) then
          Fl.cast RF (Fl.div RD (metaB.get (nPol * nCh + (nAnt * p + a))) f) else metaB.get j⟩) ∧
      Holds nR (nPol * nCh) A D' data' ∧
      (∀ r c, r < nR → c < nCh → D' r (c * nPol + p) =
        scaleN RD f (cnt (A r) a) (D r (c * nPol + p))) ∧
      (∀ r c p', p' < nPol → p' ≠ p → D' r (c * nPol + p') = D r (c * nPol + p')) := by
  have hidx : nAnt * p + a < nAnt * nPol := by
    have : p * nAnt + a < nPol * nAnt := flat_lt hp ha
    rw [Nat.mul_comm nAnt p, Nat.mul_comm nAnt nPol]
    exact this
  obtain ⟨data', e1, D', h1, h2, h3, h4⟩ := forRange_inv data.len
    (fun r data1 => (data.rd r).bind fun row =>
      forRange (antCount row a) (fun _ data =>
        forRange nCh (fun ch data => updVis data r (ch * nPol + p) fun v => v.scale RD f) data) data1)
    data
    (fun k data' => ∃ D', Holds nR (nPol * nCh) A D' data' ∧
      (∀ r c, r < k → c < nCh → D' r (c * nPol + p) =
        scaleN RD f (cnt (A r) a) (D r (c * nPol + p))) ∧
      (∀ r c p', p' < nPol → p' ≠ p → D' r (c * nPol + p') = D r (c * nPol + p')) ∧
      (∀ r i, k ≤ r → D' r i = D r i))
    ⟨D, h, fun r _ hr => by omega, fun _ _ _ _ _ => rfl, fun _ _ _ => rfl⟩ (by
      rintro r data1 hr ⟨D1, g1, g2, g3, g4⟩
      have hr' : r < nR := by rw [← h.rows]; exact hr
      have hcount : antCount (data.get r) a = cnt (A r) a := by
        rw [← h.ant r hr']; rfl
      rw [Buf.rd_some hr, Option.bind_some, hcount]
      obtain ⟨data2, e2, D2, q1, q2, q3⟩ := forRange_inv (cnt (A r) a) (fun _ data =>
          forRange nCh (fun ch data => updVis data r (ch * nPol + p) fun v => v.scale RD f) data) data1
        (fun k data2 => ∃ D2, Holds nR (nPol * nCh) A D2 data2 ∧
          (∀ c, c < nCh → D2 r (c * nPol + p) = scaleN RD f k (D1 r (c * nPol + p))) ∧
          (∀ r' i, (r' ≠ r ∨ ∀ c, c < nCh → i ≠ c * nPol + p) → D2 r' i = D1 r' i))
        ⟨D1, g1, fun _ _ => rfl, fun _ _ _ => rfl⟩ (by
          rintro k data2 _ ⟨D2, q1, q2, q3⟩
          obtain ⟨D3, data3, e3, w1, w2, w3⟩ := forRange_upd (nR := nR) (n := nPol * nCh) nCh
            (fun _ => r) (fun ch => ch * nPol + p) (fun v => v.scale RD f) q1 (fun _ _ => hr')
            (fun ch hch => chan_lt hch hp) (fun k k' _ _ _ he => (flat_inj hp hp he).1)
          refine ⟨data3, e3, D3, w1, ?_, ?_⟩
          · intro c hc
            rw [w2 c hc, q2 c hc]
            rfl
          · intro r' i hor
            rw [w3 r' i, q3 r' i hor]
            intro k hk hc
            rcases hor with h | h
            · exact h hc.1.symm
            · exact h k hk hc.2.symm)
      refine ⟨data2, e2, D2, q1, ?_, ?_, ?_⟩
      · intro r' c hr1 hc
        by_cases er : r' = r
        · subst er
          rw [q2 c hc, g4 r' _ (Nat.le_refl _)]
        · rw [q3 r' _ (Or.inl er), g2 r' c (by omega) hc]
      · intro r' c p' hp' hne
        rw [q3 r' _ (Or.inr fun c' _ hk => hne (flat_inj hp' hp hk).2), g3 r' c p' hp' hne]
      · intro r' i hr1
        rw [q3 r' i (Or.inl (by omega)), g4 r' i (by omega)])
  rw [h.rows] at h2
  refine ⟨D', data', ?_, h1, h2, h3⟩
  unfold changeAntenna
  simp only
  rw [Buf.rd_some (by omega), Option.bind_some, Buf.wr_some (by omega), Option.bind_some, e1]
  rfl

/-! ## Fitting: maxima -/

theorem localMax_counted {v : Cx} {m : ℚ} : localMax v = .fin m ↔ Counted v m := by
  unfold localMax Counted
  cases hre : v.re with
  | nan => cases him : v.im <;> simp [Fl.stdMax, Fl.stdMin, Fl.neg, Fl.lt]
  | inf x =>
    constructor
    · intro h
      exfalso
      revert h
      rcases v.im with b | y | _ <;> cases x <;> try cases y
      all_goals simp [Fl.stdMax, Fl.stdMin, Fl.neg, Fl.lt]
    · rintro ⟨a, h, _⟩
      simp at h
  | fin a =>
    cases him : v.im with
    | nan =>
      have : Fl.stdMax (.fin a) (.fin (-a)) = .fin |a| := by
        rw [stdMax_fin]
        rfl
      simp [Fl.stdMax, Fl.stdMin, Fl.neg, Fl.lt] at this ⊢
      rw [this]
      simp [eq_comm]
    | inf x => cases x <;> simp [Fl.stdMax, Fl.stdMin, Fl.neg, Fl.lt]
    | fin b =>
      have h1 : Fl.stdMin (.fin a) (.fin b) = .fin (min a b) := by
        by_cases h : b < a
        · simp [Fl.stdMin, Fl.lt, h, min_eq_right h.le]
        · simp [Fl.stdMin, Fl.lt, h, min_eq_left (not_lt.mp h)]
      have h2 : max (max a b) (-min a b) = max |a| |b| := by
        rcases le_total a b with h | h
        · rw [min_eq_left h, max_eq_right h]
          apply le_antisymm
          · exact max_le (le_trans (le_abs_self b) (le_max_right _ _))
              (le_trans (neg_le_abs a) (le_max_left _ _))
          · refine max_le (abs_le.mpr ⟨?_, ?_⟩) (abs_le.mpr ⟨?_, ?_⟩)
            · have := le_max_right b (-a); linarith
            · have := le_max_left b (-a); linarith
            · have := le_max_right b (-a); linarith
            · exact le_max_left b (-a)
        · rw [min_eq_right h, max_eq_left h]
          apply le_antisymm
          · exact max_le (le_trans (le_abs_self a) (le_max_left _ _))
              (le_trans (neg_le_abs b) (le_max_right _ _))
          · refine max_le (abs_le.mpr ⟨?_, ?_⟩) (abs_le.mpr ⟨?_, ?_⟩)
            · have := le_max_right a (-b); linarith
            · exact le_max_left a (-b)
            · have := le_max_right a (-b); linarith
            · have := le_max_left a (-b); linarith
      rw [h1, show Fl.neg (.fin (min a b)) = .fin (-min a b) from rfl, stdMax_fin, stdMax_fin, h2]
      simp [eq_comm]

/-- `M` is the largest counted magnitude of the visibilities of which `(r, i)` is in `S`, or zero if there
are none. -/
def MaxOver (S : Nat → Nat → Prop) (D : Nat → Nat → Cx) (M : ℚ) : Prop :=
  0 ≤ M ∧ (∀ r i m, S r i → Counted (D r i) m → m ≤ M) ∧
    (M = 0 ∨ ∃ r i, S r i ∧ Counted (D r i) M)

theorem MaxOver.add {S S' : Nat → Nat → Prop} {M : ℚ} {r0 i0 : Nat}
    (h : MaxOver S D M) (hS : ∀ r i, S' r i ↔ S r i ∨ (r = r0 ∧ i = i0)) :
    ∃ M', largerOf (.fin M) (localMax (D r0 i0)) = .fin M' ∧ MaxOver S' D M' := by
  obtain ⟨h0, h1, h2⟩ := h
  by_cases hc : ∃ m, Counted (D r0 i0) m
  · obtain ⟨m, hm⟩ := hc
    have e := localMax_counted.mpr hm
    by_cases hlt : M < m
    · refine ⟨m, by simp [largerOf, e, Fl.isFinite, Fl.lt, hlt], hm.nonneg, ?_,
        Or.inr ⟨r0, i0, (hS _ _).mpr (Or.inr ⟨rfl, rfl⟩), hm⟩⟩
      intro r i m' hs hc
      rcases (hS r i).mp hs with h | ⟨rfl, rfl⟩
      · exact le_trans (h1 r i m' h hc) hlt.le
      · exact le_of_eq (hc.unique hm)
    · refine ⟨M, by simp [largerOf, e, Fl.isFinite, Fl.lt, hlt], h0, ?_, ?_⟩
      · intro r i m' hs hc
        rcases (hS r i).mp hs with h | ⟨rfl, rfl⟩
        · exact h1 r i m' h hc
        · rw [hc.unique hm]; exact not_lt.mp hlt
      · rcases h2 with h | ⟨r, i, hs, hc⟩
        · exact Or.inl h
        · exact Or.inr ⟨r, i, (hS _ _).mpr (Or.inl hs), hc⟩
  · have hnf : (localMax (D r0 i0)).isFinite = false := by
      cases hx : localMax (D r0 i0) with
      | fin m => exact absurd ⟨m, localMax_counted.mp hx⟩ hc
      | inf _ => rfl
      | nan => rfl
    refine ⟨M, by simp [largerOf, hnf], h0, ?_, ?_⟩
    · intro r i m' hs hc'
      rcases (hS r i).mp hs with h | ⟨rfl, rfl⟩
      · exact h1 r i m' h hc'
      · exact absurd ⟨m', hc'⟩ hc
    · rcases h2 with h | ⟨r, i, hs, hc⟩
      · exact Or.inl h
      · exact Or.inr ⟨r, i, (hS _ _).mpr (Or.inl hs), hc⟩

theorem MaxOver.congr {S S' : Nat → Nat → Prop} {M : ℚ} (h : MaxOver S D M)
    (hS : ∀ r i, S' r i ↔ S r i) : MaxOver S' D M := by
  obtain ⟨h0, h1, h2⟩ := h
  refine ⟨h0, fun r i m hs => h1 r i m ((hS r i).mp hs), ?_⟩
  rcases h2 with h | ⟨r, i, hs, hc⟩
  · exact Or.inl h
  · exact Or.inr ⟨r, i, (hS _ _).mpr hs, hc⟩

/-- A cross-correlation. -/
def Cross (A : Nat → Nat × Nat) (r : Nat) : Prop := (A r).1 ≠ (A r).2

theorem crossMax_spec (h : Holds nR n A D data) {i : Nat} (hi : i < n) :
    ∃ M, crossMax data i = some (.fin M) ∧
      MaxOver (fun r j => r < nR ∧ Cross A r ∧ j = i) D M := by
  obtain ⟨mx, e, M, rfl, hM⟩ := forRange_inv data.len (fun r mx => (data.rd r).bind fun row =>
    if row.antenna1 = row.antenna2 then some mx else
      (row.vis.rd i).map fun v => largerOf mx (localMax v)) (.fin 0)
    (fun k mx => ∃ M, mx = .fin M ∧ MaxOver (fun r j => r < k ∧ Cross A r ∧ j = i) D M)
    ⟨0, rfl, le_refl _, fun r j m hs => by have := hs.1; omega, Or.inl rfl⟩ (by
      rintro k mx hk ⟨M, rfl, hM⟩
      have hk' : k < nR := by rw [← h.rows]; exact hk
      have ha := h.ant k hk'
      rw [Buf.rd_some hk, Option.bind_some]
      by_cases hc : (data.get k).antenna1 = (data.get k).antenna2
      · rw [if_pos hc]
        refine ⟨_, rfl, M, rfl, hM.congr ?_⟩
        intro r j
        constructor
        · rintro ⟨h1, h2, h3⟩
          refine ⟨?_, h2, h3⟩
          rcases Nat.lt_or_eq_of_le (Nat.le_of_lt_succ h1) with h' | h'
          · exact h'
          · exfalso
            apply h2
            rw [h', ← ha]
            exact hc
        · rintro ⟨h1, h2, h3⟩
          exact ⟨by omega, h2, h3⟩
      · rw [if_neg hc, Buf.rd_some (by rw [h.len k hk']; exact hi), h.vis k i hk' hi]
        obtain ⟨M', e', hM'⟩ := hM.add (S' := fun r j => r < k + 1 ∧ Cross A r ∧ j = i)
          (r0 := k) (i0 := i) (by
            intro r j
            constructor
            · rintro ⟨h1, h2, h3⟩
              rcases Nat.lt_or_eq_of_le (Nat.le_of_lt_succ h1) with h' | h'
              · exact Or.inl ⟨h', h2, h3⟩
              · exact Or.inr ⟨h', h3⟩
            · rintro (⟨h1, h2, h3⟩ | ⟨h1, h2⟩)
              · exact ⟨by omega, h2, h3⟩
              · refine ⟨by omega, ?_, h2⟩
                unfold Cross
                rw [h1, ← ha]
                exact hc)
        exact ⟨_, rfl, M', e', hM'⟩)
  rw [h.rows] at hM
  exact ⟨M, e, hM⟩

/-- `raiseTo` is the running maximum for one antenna. -/
theorem raiseTo_spec {buf : Buf Fl} {a : Nat} (ha : a < buf.len) {v : Cx}
    (hf : (localMax v).isFinite = true) :
    raiseTo buf a (localMax v) = some ⟨buf.len, fun j => if j = a then largerOf (buf.get a) (localMax v)
      else buf.get j⟩ := by
  unfold raiseTo
  rw [Buf.rd_some ha, Option.bind_some]
  by_cases hlt : Fl.lt (buf.get a) (localMax v) = true
  · rw [if_pos hlt, Buf.wr_some ha]
    simp [largerOf, hf, hlt]
  · rw [if_neg hlt]
    have : (fun j => if j = a then largerOf (buf.get a) (localMax v) else buf.get j) = buf.get := by
      funext j
      by_cases hj : j = a
      · simp [hj, largerOf, hlt]
      · simp [hj]
    rw [this]

/-- Cells of a cross-correlation row with antenna `a`, polarisation `p`. -/
def AntCell (A : Nat → Nat × Nat) (nPol nCh p a r i : Nat) : Prop :=
  Cross A r ∧ ((A r).1 = a ∨ (A r).2 = a) ∧ ∃ c, c < nCh ∧ i = c * nPol + p

theorem antennaMax_spec (h : Holds nR (nPol * nCh) A D data) (hA : AntennasBelow nR nAnt A) {p : Nat}
    (hp : p < nPol) : ∃ mx, antennaMax nPol nCh nAnt p data = some mx ∧ mx.len = nAnt ∧
      ∀ a, a < nAnt → ∃ M, mx.get a = .fin M ∧
        MaxOver (fun r i => r < nR ∧ AntCell A nPol nCh p a r i) D M := by
  obtain ⟨mx, e, l, hM⟩ := forRange_inv data.len (fun r mx => (data.rd r).bind fun row =>
    if row.antenna1 = row.antenna2 then some mx else
      forRange nCh (fun ch (mx : Buf Fl) => (row.vis.rd (ch * nPol + p)).bind fun v =>
        if (localMax v).isFinite then
          (raiseTo mx row.antenna1 (localMax v)).bind fun mx => raiseTo mx row.antenna2 (localMax v)
        else some mx) mx) ⟨nAnt, fun _ => .fin 0⟩
    (fun k mx => mx.len = nAnt ∧ ∀ a, a < nAnt → ∃ M, mx.get a = .fin M ∧
      MaxOver (fun r i => r < k ∧ AntCell A nPol nCh p a r i) D M)
    ⟨rfl, fun a _ => ⟨0, rfl, le_refl _, fun r j m hs => by have := hs.1; omega, Or.inl rfl⟩⟩ (by
      rintro k mx hk ⟨l, hM⟩
      have hk' : k < nR := by rw [← h.rows]; exact hk
      have ha := h.ant k hk'
      have hb := hA k hk'
      rw [Buf.rd_some hk, Option.bind_some]
      by_cases hc : (data.get k).antenna1 = (data.get k).antenna2
      · rw [if_pos hc]
        refine ⟨_, rfl, l, ?_⟩
        intro a ha'
        obtain ⟨M, e, hM'⟩ := hM a ha'
        refine ⟨M, e, hM'.congr ?_⟩
        intro r j
        constructor
        · rintro ⟨h1, h2⟩
          refine ⟨?_, h2⟩
          rcases Nat.lt_or_eq_of_le (Nat.le_of_lt_succ h1) with h' | h'
          · exact h'
          · exfalso
            apply h2.1
            rw [h', ← ha]
            exact hc
        · rintro ⟨h1, h2⟩
          exact ⟨by omega, h2⟩
      · rw [if_neg hc]
        rw [← ha] at hb
        simp only at hb
        have hcr : Cross A k := by unfold Cross; rw [← ha]; exact hc
        obtain ⟨mx', e, l', hM'⟩ := forRange_inv nCh
          (fun ch (mx : Buf Fl) => ((data.get k).vis.rd (ch * nPol + p)).bind fun v =>
            if (localMax v).isFinite then
              (raiseTo mx (data.get k).antenna1 (localMax v)).bind fun mx =>
                raiseTo mx (data.get k).antenna2 (localMax v)
            else some mx) mx
          (fun c mx => mx.len = nAnt ∧ ∀ a, a < nAnt → ∃ M, mx.get a = .fin M ∧
            MaxOver (fun r i => (r < k ∧ AntCell A nPol nCh p a r i) ∨
              (r = k ∧ AntCell A nPol c p a r i)) D M)
          ⟨l, fun a ha' => by
            obtain ⟨M, e, hM'⟩ := hM a ha'
            refine ⟨M, e, hM'.congr ?_⟩
            intro r j
            constructor
            · rintro (h | ⟨_, _, _, c, hc, _⟩)
              · exact h
              · omega
            · exact Or.inl⟩ (by
            rintro c mx hc' ⟨l, hM⟩
            have hlt := chan_lt (nPol := nPol) hc' hp
            rw [Buf.rd_some (by rw [h.len k hk']; exact hlt), h.vis k _ hk' hlt, Option.bind_some]
            -- the new cell set for antenna `a`
            have hset : ∀ a, ((A k).1 = a ∨ (A k).2 = a) → ∀ r i,
                ((r < k ∧ AntCell A nPol nCh p a r i) ∨ (r = k ∧ AntCell A nPol (c + 1) p a r i)) ↔
                ((r < k ∧ AntCell A nPol nCh p a r i) ∨ (r = k ∧ AntCell A nPol c p a r i)) ∨
                  (r = k ∧ i = c * nPol + p) := by
              intro a haa r i
              constructor
              · rintro (h | ⟨h1, h2, h3, c', hc1, hi⟩)
                · exact Or.inl (Or.inl h)
                · rcases Nat.lt_or_eq_of_le (Nat.le_of_lt_succ hc1) with h' | h'
                  · exact Or.inl (Or.inr ⟨h1, h2, h3, c', h', hi⟩)
                  · exact Or.inr ⟨h1, by rw [hi, h']⟩
              · rintro ((h | ⟨h1, h2, h3, c', hc1, hi⟩) | ⟨h1, h2⟩)
                · exact Or.inl h
                · exact Or.inr ⟨h1, h2, h3, c', by omega, hi⟩
                · exact Or.inr ⟨h1, by rw [h1]; exact hcr, by rw [h1]; exact haa, c, by omega, h2⟩
            have hset' : ∀ a, ¬ ((A k).1 = a ∨ (A k).2 = a) → ∀ r i,
                ((r < k ∧ AntCell A nPol nCh p a r i) ∨ (r = k ∧ AntCell A nPol (c + 1) p a r i)) ↔
                ((r < k ∧ AntCell A nPol nCh p a r i) ∨ (r = k ∧ AntCell A nPol c p a r i)) := by
              intro a haa r i
              constructor
              · rintro (h | ⟨h1, h2, h3, _⟩)
                · exact Or.inl h
                · rw [h1] at h3; exact absurd h3 haa
              · rintro (h | ⟨h1, h2, h3, _⟩)
                · exact Or.inl h
                · rw [h1] at h3; exact absurd h3 haa
            have hA1 : (A k).1 = (data.get k).antenna1 := by rw [← ha]
            have hA2 : (A k).2 = (data.get k).antenna2 := by rw [← ha]
            by_cases hf : (localMax (D k (c * nPol + p))).isFinite = true
            · rw [if_pos hf, raiseTo_spec (by omega) hf, Option.bind_some,
                raiseTo_spec (by simp only; omega) hf]
              refine ⟨_, rfl, l, ?_⟩
              intro a ha'
              obtain ⟨M, e, hM'⟩ := hM a ha'
              simp only
              by_cases h2 : a = (data.get k).antenna2
              · have hne : ¬ (a = (data.get k).antenna1) := fun h => hc (by omega)
                obtain ⟨M', e', hM''⟩ := hM'.add (r0 := k) (i0 := c * nPol + p)
                  (hset a (Or.inr (by omega)))
                refine ⟨M', ?_, hM''⟩
                rw [← e', ← e]
                rw [if_pos h2, if_neg (fun h => hne (by omega)), h2]
              · by_cases h1 : a = (data.get k).antenna1
                · obtain ⟨M', e', hM''⟩ := hM'.add (r0 := k) (i0 := c * nPol + p)
                    (hset a (Or.inl (by omega)))
                  refine ⟨M', ?_, hM''⟩
                  rw [← e', ← e]
                  rw [if_neg h2, if_pos h1, h1]
                · refine ⟨M, by rw [if_neg h2, if_neg h1, e], hM'.congr (hset' a ?_)⟩
                  rintro (h | h)
                  · exact h1 (by omega)
                  · exact h2 (by omega)
            · rw [if_neg hf]
              refine ⟨_, rfl, l, ?_⟩
              intro a ha'
              obtain ⟨M, e, hM'⟩ := hM a ha'
              by_cases haa : (A k).1 = a ∨ (A k).2 = a
              · obtain ⟨M', e', hM''⟩ := hM'.add (r0 := k) (i0 := c * nPol + p) (hset a haa)
                refine ⟨M', ?_, hM''⟩
                rw [← e', e]
                simp [largerOf, hf]
              · exact ⟨M, e, hM'.congr (hset' a haa)⟩)
        refine ⟨mx', e, l', ?_⟩
        intro a ha'
        obtain ⟨M, e, hM2⟩ := hM' a ha'
        refine ⟨M, e, hM2.congr ?_⟩
        intro r j
        constructor
        · rintro ⟨h1, h2⟩
          rcases Nat.lt_or_eq_of_le (Nat.le_of_lt_succ h1) with h' | h'
          · exact Or.inl ⟨h', h2⟩
          · exact Or.inr ⟨h', h2⟩
        · rintro (⟨h1, h2⟩ | ⟨h1, h2⟩)
          · exact ⟨by omega, h2⟩
          · exact ⟨by omega, h2⟩)
  rw [h.rows] at hM
  exact ⟨mx, e, l, hM⟩

/-! ## Fitting: choosing a factor -/

theorem channelIncrease_some {RD : ℚ → Fl} (h : Holds nR n A D data) {i : Nat} (hi : i < n) (f : Fl) :
    ∃ x, channelIncrease RD data i f = some x := by
  obtain ⟨x, e, _⟩ := forRange_inv data.len (fun r s => (data.rd r).bind fun row =>
    if row.antenna1 = row.antenna2 then some s else
      (row.vis.rd i).map fun v => addAbs RD s v f) (.fin 0) (fun _ _ => True) trivial (by
      intro k s hk _
      have hk' : k < nR := by rw [← h.rows]; exact hk
      rw [Buf.rd_some hk, Option.bind_some]
      split
      · exact ⟨_, rfl, trivial⟩
      · rw [Buf.rd_some (by rw [h.len k hk']; exact hi)]
        exact ⟨_, rfl, trivial⟩)
  exact ⟨x, e⟩

/-- The best channel: no channel (factor 1), or one with the factor that belongs to its maximum. The
increase is not negative. -/
theorem bestChannel_spec {RD : ℚ → Fl} {maxLevel : Fl} (h : Holds nR (nPol * nCh) A D data) {p : Nat}
    (hp : p < nPol) : ∃ b, bestChannel RD nPol nCh p maxLevel data = some b ∧
      Fl.lt b.increase (.fin 0) = false ∧
      ((b.channel = 0 ∧ b.factor = .fin 1) ∨ (b.channel < nCh ∧ ∃ M,
        MaxOver (fun r j => r < nR ∧ Cross A r ∧ j = b.channel * nPol + p) D M ∧
        b.factor = Fl.add RD (gain RD maxLevel (.fin M)) (.fin 1))) := by
  obtain ⟨b, e, h1, h2⟩ := forRange_inv nCh (fun ch (b : BestChannel) =>
    (crossMax data (ch * nPol + p)).bind fun mx =>
    (channelIncrease RD data (ch * nPol + p) (gain RD maxLevel mx)).map fun inc =>
      if Fl.lt b.increase inc then ⟨inc, ch, Fl.add RD (gain RD maxLevel mx) (.fin 1)⟩ else b)
    ⟨.fin 0, 0, .fin 1⟩
    (fun k b => ((∃ q, b.increase = .fin q ∧ 0 ≤ q) ∨ b.increase = .inf false) ∧
      ((b.channel = 0 ∧ b.factor = .fin 1) ∨ (b.channel < k ∧ ∃ M,
        MaxOver (fun r j => r < nR ∧ Cross A r ∧ j = b.channel * nPol + p) D M ∧
        b.factor = Fl.add RD (gain RD maxLevel (.fin M)) (.fin 1))))
    ⟨Or.inl ⟨0, rfl, le_refl _⟩, Or.inl ⟨rfl, rfl⟩⟩ (by
      rintro ch b hch ⟨h1, h2⟩
      have hi := chan_lt (nPol := nPol) hch hp
      obtain ⟨M, eM, hM⟩ := crossMax_spec h hi
      obtain ⟨inc, ei⟩ := channelIncrease_some (RD := RD) h hi (gain RD maxLevel (.fin M))
      rw [eM, Option.bind_some, ei]
      refine ⟨_, rfl, ?_⟩
      simp only
      split
      · next hlt =>
        refine ⟨?_, Or.inr ⟨by simp, M, hM, rfl⟩⟩
        simp only
        rcases h1 with ⟨q, eq, hq⟩ | h1
        · rw [eq] at hlt
          cases inc with
          | fin y =>
            simp only [Fl.lt, decide_eq_true_eq] at hlt
            exact Or.inl ⟨y, rfl, by linarith⟩
          | inf n =>
            simp [Fl.lt] at hlt
            exact Or.inr (by rw [hlt])
          | nan => simp [Fl.lt] at hlt
        · rw [h1] at hlt
          cases inc <;> simp [Fl.lt] at hlt
      · refine ⟨h1, ?_⟩
        rcases h2 with h2 | ⟨h2, h3⟩
        · exact Or.inl h2
        · exact Or.inr ⟨by omega, h3⟩)
  refine ⟨b, e, ?_, h2⟩
  rcases h1 with ⟨q, eq, hq⟩ | h1
  · rw [eq]; simp [Fl.lt, hq]
  · rw [h1]; rfl

theorem antennaIncrease_some {RD : ℚ → Fl} {maxLevel : Fl} (h : Holds nR (nPol * nCh) A D data)
    (hA : AntennasBelow nR nAnt A) {p : Nat} (hp : p < nPol) {mx : Buf Fl} (hm : mx.len = nAnt) :
    ∃ inc, antennaIncrease RD nPol nCh nAnt p maxLevel mx data = some inc ∧ inc.len = nAnt := by
  obtain ⟨inc, e, l⟩ := forRange_inv data.len (fun r inc => (data.rd r).bind fun row =>
    if row.antenna1 = row.antenna2 then some inc else
      (mx.rd row.antenna1).bind fun m1 => (mx.rd row.antenna2).bind fun m2 =>
      forRange nCh (fun ch (inc : Buf Fl) => (row.vis.rd (ch * nPol + p)).bind fun v =>
        (inc.rd row.antenna1).bind fun s1 =>
        (inc.wr row.antenna1 (addAbs RD s1 v (gain RD maxLevel m1))).bind fun inc =>
        (inc.rd row.antenna2).bind fun s2 =>
        inc.wr row.antenna2 (addAbs RD s2 v (gain RD maxLevel m2))) inc) ⟨nAnt, fun _ => .fin 0⟩
    (fun _ b => b.len = nAnt) rfl (by
      intro k b hk hl
      have hk' : k < nR := by rw [← h.rows]; exact hk
      have ha := h.ant k hk'
      have hb := hA k hk'
      rw [← ha] at hb
      simp only at hb
      rw [Buf.rd_some hk, Option.bind_some]
      split
      · exact ⟨b, rfl, hl⟩
      · rw [Buf.rd_some (by omega), Option.bind_some, Buf.rd_some (by omega), Option.bind_some]
        obtain ⟨t, e, ht⟩ := forRange_inv nCh
          (fun ch (inc : Buf Fl) => ((data.get k).vis.rd (ch * nPol + p)).bind fun v =>
            (inc.rd (data.get k).antenna1).bind fun s1 =>
            (inc.wr (data.get k).antenna1 (addAbs RD s1 v
              (gain RD maxLevel (mx.get (data.get k).antenna1)))).bind fun inc =>
            (inc.rd (data.get k).antenna2).bind fun s2 =>
            inc.wr (data.get k).antenna2 (addAbs RD s2 v
              (gain RD maxLevel (mx.get (data.get k).antenna2)))) b
          (fun _ b => b.len = nAnt) hl (by
            intro c b hc hl
            rw [Buf.rd_some (by rw [h.len k hk']; exact chan_lt hc hp), Option.bind_some,
              Buf.rd_some (by omega), Option.bind_some, Buf.wr_some (by omega), Option.bind_some,
              Buf.rd_some (by simp only; omega), Option.bind_some, Buf.wr_some (by simp only; omega)]
            exact ⟨_, rfl, hl⟩)
        exact ⟨t, e, ht⟩)
  exact ⟨inc, e, l⟩

theorem bestAntenna_spec {inc : Buf Fl} (h : inc.len = nAnt) :
    ∃ b, bestAntenna nAnt inc = some b ∧ (b = (0, .fin 0) ∨ b.1 < nAnt) := by
  obtain ⟨b, e, hb⟩ := forRange_inv nAnt (fun a (b : Nat × Fl) => (inc.rd a).map fun x =>
    if Fl.lt b.2 x then (a, x) else b) (0, .fin 0) (fun k b => b = (0, .fin 0) ∨ b.1 < k) (Or.inl rfl) (by
      intro k b hk hb
      rw [Buf.rd_some (by omega)]
      refine ⟨_, rfl, ?_⟩
      simp only
      split
      · exact Or.inr (by simp)
      · rcases hb with h | h
        · exact Or.inl h
        · exact Or.inr (by omega))
  exact ⟨b, e, hb⟩

/-- One iteration of the fitting loop, any arithmetic: it does nothing, or it changes one antenna, or one
channel, with a factor that belongs to the maximum. -/
theorem fitStep_spec {RF RD : ℚ → Fl} {maxLevel : Fl} (hc : 0 < nCh)
    (h : Holds nR (nPol * nCh) A D data) (hA : AntennasBelow nR nAnt A) {p : Nat} (hp : p < nPol)
    (metaB : Buf Fl) :
    fitStep RF RD nPol nCh nAnt p maxLevel (data, metaB) = some ((data, metaB), false) ∨
    (∃ a M, a < nAnt ∧ MaxOver (fun r i => r < nR ∧ AntCell A nPol nCh p a r i) D M ∧
      Fl.lt (antennaFactor RD maxLevel (.fin M)) (.fin 1) = false ∧
      fitStep RF RD nPol nCh nAnt p maxLevel (data, metaB) =
        (changeAntenna RF RD nPol nCh nAnt (data, metaB) a p (antennaFactor RD maxLevel (.fin M))).map
          fun st => (st, Fl.lt (RD (101 / 100)) (antennaFactor RD maxLevel (.fin M)))) ∨
    (∃ c f, c < nCh ∧ Fl.lt f (.fin 1) = false ∧ (f = .fin 1 ∨ ∃ M,
        MaxOver (fun r j => r < nR ∧ Cross A r ∧ j = c * nPol + p) D M ∧
        f = Fl.add RD (gain RD maxLevel (.fin M)) (.fin 1)) ∧
      fitStep RF RD nPol nCh nAnt p maxLevel (data, metaB) =
        (changeChannel RF RD (data, metaB) (c * nPol + p) f).map
          fun st => (st, Fl.lt (RD (1001 / 1000)) f)) := by
  obtain ⟨bc, e1, hinc, hbc⟩ := bestChannel_spec (RD := RD) (maxLevel := maxLevel) h hp
  obtain ⟨mx, e2, l2, hmx⟩ := antennaMax_spec h hA hp
  obtain ⟨inc, e3, l3⟩ := antennaIncrease_some (RD := RD) (maxLevel := maxLevel) h hA hp l2
  obtain ⟨ba, e4, hba⟩ := bestAntenna_spec l3
  unfold fitStep
  simp only
  rw [e1, Option.bind_some, e2, Option.bind_some, e3, Option.bind_some, e4, Option.bind_some]
  by_cases hlt : Fl.lt bc.increase ba.2 = true
  · rw [if_pos hlt]
    have hba' : ba.1 < nAnt := by
      rcases hba with h | h
      · rw [h] at hlt
        simp only [hinc] at hlt
        exact absurd hlt (by simp)
      · exact h
    rw [Buf.rd_some (by omega), Option.bind_some]
    obtain ⟨M, eM, hM⟩ := hmx ba.1 hba'
    rw [eM]
    by_cases hf : Fl.lt (antennaFactor RD maxLevel (.fin M)) (.fin 1) = true
    · rw [if_pos hf]; exact Or.inl rfl
    · rw [if_neg hf]
      exact Or.inr (Or.inl ⟨ba.1, M, hba', hM, by simpa using hf, rfl⟩)
  · rw [if_neg hlt]
    by_cases hf : Fl.lt bc.factor (.fin 1) = true
    · rw [if_pos hf]; exact Or.inl rfl
    · rw [if_neg hf]
      refine Or.inr (Or.inr ⟨bc.channel, bc.factor, ?_, by simpa using hf, ?_, rfl⟩)
      · rcases hbc with h | h
        · rw [h.1]; exact hc
        · exact h.1
      · rcases hbc with h | h
        · exact Or.inl h.2
        · exact Or.inr h.2

end Dysco.AF
