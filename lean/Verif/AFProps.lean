import Verif.AFFit

/-!
# Properties C25, C26 and C27: antenna-frequency normalisation
-/

namespace Dysco.AF
open TimeBlock Stochastic

variable {nR n nPol nCh nAnt : Nat} {A : Nat → Nat × Nat} {D : Nat → Nat → Cx} {data : Block Cx}

/-! ## Exact arithmetic -/

theorem cast_exact (x : Fl) : Fl.cast Fl.exact x = x := by cases x <;> rfl

theorem scale_one (v : Cx) : v.scale Fl.exact (.fin 1) = v := by
  obtain ⟨re, im⟩ := v
  have h : ∀ x, Fl.mul Fl.exact x (.fin 1) = x := by
    intro x
    cases x with
    | fin a => simp [Fl.mul, Fl.exact]
    | inf s => cases s <;> simp [Fl.mul]
    | nan => rfl
  simp [Cx.scale, h]

theorem mul_mul_exact (x : Fl) {s t : ℚ} (hs : 0 < s) (ht : 0 < t) :
    Fl.mul Fl.exact (Fl.mul Fl.exact x (.fin s)) (.fin t) = Fl.mul Fl.exact x (.fin (s * t)) := by
  have hst := mul_pos hs ht
  cases x with
  | fin a => simp [Fl.mul, Fl.exact, mul_assoc]
  | inf n => simp [Fl.mul, hs.ne', ht.ne', hst.ne', not_lt.mpr hs.le, not_lt.mpr ht.le,
      not_lt.mpr hst.le]
  | nan => rfl

theorem scale_scale (v : Cx) {s t : ℚ} (hs : 0 < s) (ht : 0 < t) :
    (v.scale Fl.exact (.fin s)).scale Fl.exact (.fin t) = v.scale Fl.exact (.fin (s * t)) := by
  simp [Cx.scale, mul_mul_exact _ hs ht]

theorem scaleN_exact (v : Cx) {t : ℚ} (ht : 0 < t) (k : Nat) :
    scaleN Fl.exact (.fin t) k v = v.scale Fl.exact (.fin (t ^ k)) := by
  induction k with
  | zero => rw [pow_zero, scale_one]; rfl
  | succ k ih => rw [scaleN, ih, scale_scale v (pow_pos ht k) ht, pow_succ]

theorem div_div_exact (x : Fl) {s t : ℚ} (hs : 0 < s) (ht : 0 < t) :
    Fl.div Fl.exact (Fl.div Fl.exact x (.fin s)) (.fin t) = Fl.div Fl.exact x (.fin (s * t)) := by
  have hst := mul_pos hs ht
  cases x with
  | fin a => simp [Fl.div, Fl.exact, hs.ne', ht.ne', div_div]
  | inf n => simp [Fl.div, not_lt.mpr hs.le, not_lt.mpr ht.le, not_lt.mpr hst.le]
  | nan => rfl

/-- Data and metadata after adjustments with factors `x` (channels) and `y` (antennas). -/
def Adjusted (nR nPol nCh nAnt : Nat) (A : Nat → Nat × Nat) (D0 : Nat → Nat → Cx) (meta0 : Buf Fl)
    (st : Block Cx × Buf Fl) : Prop :=
  ∃ (D : Nat → Nat → Cx) (x : Nat → ℚ) (y : Nat → Nat → ℚ), Holds nR (nPol * nCh) A D st.1 ∧
    st.2.len = meta0.len ∧ (∀ i, 0 < x i) ∧ (∀ p a, 0 < y p a) ∧
    (∀ r c p, r < nR → c < nCh → p < nPol → D r (c * nPol + p) =
      (D0 r (c * nPol + p)).scale Fl.exact (.fin (x (c * nPol + p) * (y p (A r).1 * y p (A r).2)))) ∧
    (∀ i, i < nPol * nCh → st.2.get i = Fl.div Fl.exact (meta0.get i) (.fin (x i))) ∧
    (∀ p a, p < nPol → a < nAnt → st.2.get (nPol * nCh + (nAnt * p + a)) =
      Fl.div Fl.exact (meta0.get (nPol * nCh + (nAnt * p + a))) (.fin (y p a)))

theorem div_one_exact (x : Fl) : Fl.div Fl.exact x (.fin 1) = x := by
  cases x with
  | fin a => simp [Fl.div, Fl.exact]
  | inf n => cases n <;> simp [Fl.div]
  | nan => rfl

theorem Adjusted.refl {meta0 : Buf Fl} (h : Holds nR (nPol * nCh) A D data) :
    Adjusted nR nPol nCh nAnt A D meta0 (data, meta0) :=
  ⟨D, fun _ => 1, fun _ _ => 1, h, rfl, fun _ => one_pos, fun _ _ => one_pos,
    fun r c p _ _ _ => by simp [scale_one], fun i _ => by rw [div_one_exact],
    fun p a _ _ => by rw [div_one_exact]⟩

/-- The adjustments of the fit keep data and metadata consistent. -/
theorem adjusted_kept (D0 : Nat → Nat → Cx) (meta0 : Buf Fl)
    (hb : nPol * nCh + nAnt * nPol ≤ meta0.len) :
    Kept Fl.exact Fl.exact nPol nCh nAnt (Adjusted nR nPol nCh nAnt A D0 meta0) where
  channel := by
    rintro ⟨data, metaB⟩ i q st' ⟨D, x, y, h1, h2, h3, h4, h5, h6, h7⟩ hi hq e
    simp only at h1 h2 h6 h7
    obtain ⟨D', data', e', k1, k2, k3⟩ := changeChannel_spec (RF := Fl.exact) (RD := Fl.exact) h1
      metaB hi (by omega) (.fin q)
    rw [e'] at e
    obtain rfl := Option.some.inj e
    refine ⟨D', fun j => if j = i then x i * q else x j, y, k1, h2, ?_, h4, ?_, ?_, ?_⟩
    · intro j
      simp only
      split
      · exact mul_pos (h3 i) hq
      · exact h3 j
    · intro r c p hr hc hp
      simp only
      by_cases hji : c * nPol + p = i
      · rw [if_pos hji, hji, k2 r hr, ← hji, h5 r c p hr hc hp,
          scale_scale _ (mul_pos (h3 _) (mul_pos (h4 _ _) (h4 _ _))) hq]
        congr 2
        ring
      · rw [if_neg hji, k3 r _ hji, h5 r c p hr hc hp]
    · intro j hj
      simp only
      by_cases hji : j = i
      · rw [if_pos hji, if_pos hji, cast_exact, h6 i hi, div_div_exact _ (h3 i) hq, hji]
      · rw [if_neg hji, if_neg hji, h6 j hj]
    · intro p a hp ha
      simp only
      rw [if_neg (by omega), h7 p a hp ha]
  antenna := by
    rintro ⟨data, metaB⟩ a p q st' ⟨D, x, y, h1, h2, h3, h4, h5, h6, h7⟩ ha hp hq e
    simp only at h1 h2 h6 h7
    obtain ⟨D', data', e', k1, k2, k3⟩ := changeAntenna_spec (RF := Fl.exact) (RD := Fl.exact) h1
      metaB ha hp (by omega) (.fin q)
    rw [e'] at e
    obtain rfl := Option.some.inj e
    refine ⟨D', x, fun p' a' => if p' = p ∧ a' = a then y p a * q else y p' a', k1, h2, h3, ?_, ?_,
      ?_, ?_⟩
    · intro p' a'
      simp only
      split
      · exact mul_pos (h4 p a) hq
      · exact h4 p' a'
    · intro r c p' hr hc hp'
      simp only
      by_cases hpp : p' = p
      · subst hpp
        rw [k2 r c hr hc, h5 r c p' hr hc hp', scaleN_exact _ hq,
          scale_scale _ (mul_pos (h3 _) (mul_pos (h4 _ _) (h4 _ _))) (pow_pos hq _)]
        congr 2
        unfold cnt
        by_cases e1 : (A r).1 = a <;> by_cases e2 : (A r).2 = a
        · simp only [e1, e2, if_true, and_self]; ring
        · simp only [e1, e2, if_true, if_false, and_self, and_false]; ring
        · simp only [e1, e2, if_true, if_false, and_self, and_false]; ring
        · simp only [e1, e2, if_false, and_false]; ring
      · simp only [hpp, false_and, if_false]
        rw [k3 r c p' hp' hpp, h5 r c p' hr hc hp']
    · intro i hi
      simp only
      rw [if_neg (by omega), h6 i hi]
    · intro p' a' hp' ha'
      simp only
      by_cases hpa : p' = p ∧ a' = a
      · obtain ⟨rfl, rfl⟩ := hpa
        rw [if_pos rfl, if_pos ⟨rfl, rfl⟩, cast_exact, h7 p' a' hp' ha', div_div_exact _ (h4 _ _) hq]
      · rw [if_neg hpa, if_neg, h7 p' a' hp' ha']
        intro he
        apply hpa
        have : p' * nAnt + a' = p * nAnt + a := by
          rw [Nat.mul_comm p', Nat.mul_comm p]; omega
        exact flat_inj ha' ha this

/-- The RMS normalisation in exact arithmetic. -/
theorem normalize_exact {sq : Fl → Fl} (hsq : SqrtLike sq) (h : Holds nR (nPol * nCh) A D data)
    (hA : AntennasBelow nR nAnt A) (metaB : Buf Fl) (hb : nPol * nCh + nAnt * nPol ≤ metaB.len) :
    ∃ (D0 : Nat → Nat → Cx) (w : Nat → Nat → ℚ) (st : Block Cx × Buf Fl),
      normalize Fl.exact Fl.exact sq nPol nCh nAnt (data, metaB) = some st ∧
      Holds nR (nPol * nCh) A D0 st.1 ∧ st.2.len = metaB.len ∧ (∀ p a, 0 ≤ w p a) ∧
      (∀ r c p, r < nR → c < nCh → p < nPol → D0 r (c * nPol + p) =
        (divRms Fl.exact (rms Fl.exact sq (measFold Fl.exact (fun r => D r (c * nPol + p)) nR))
          (D r (c * nPol + p))).scale Fl.exact
            (antFactor Fl.exact (.fin (w p (A r).1)) (.fin (w p (A r).2)))) ∧
      (∀ i, 0 < nR → i < nPol * nCh → st.2.get i =
        rms Fl.exact sq (measFold Fl.exact (fun r => D r i) nR)) ∧
      (∀ p a, p < nPol → a < nAnt → st.2.get (nPol * nCh + (nAnt * p + a)) = .fin (w p a)) := by
  obtain ⟨meas, e1, l1, m1⟩ := channelMeas_spec (RD := Fl.exact) h
  obtain ⟨D1, data1, meta1, e2, h1, h2, h3, h4, h5⟩ := normalizeChannels_spec (RF := Fl.exact)
    (RD := Fl.exact) (sq := sq) h meas l1 metaB (by omega)
  obtain ⟨st, e3, D2, w, k1, k2, k3, k4, k5, k6, k7⟩ := forRange_inv nPol
    (fun p st => normalizeAntennas Fl.exact Fl.exact sq nPol nCh nAnt p st) (data1, meta1)
    (fun k st => ∃ (D2 : Nat → Nat → Cx) (w : Nat → Nat → ℚ), Holds nR (nPol * nCh) A D2 st.1 ∧
      st.2.len = metaB.len ∧ (∀ p a, 0 ≤ w p a) ∧
      (∀ r c p, r < nR → c < nCh → p < k → D2 r (c * nPol + p) = (D1 r (c * nPol + p)).scale Fl.exact
          (antFactor Fl.exact (.fin (w p (A r).1)) (.fin (w p (A r).2)))) ∧
      (∀ r c p, p < nPol → k ≤ p → D2 r (c * nPol + p) = D1 r (c * nPol + p)) ∧
      (∀ i, i < nPol * nCh → st.2.get i = meta1.get i) ∧
      (∀ p a, p < k → a < nAnt → st.2.get (nPol * nCh + (nAnt * p + a)) = .fin (w p a)))
    ⟨D1, fun _ _ => 0, h1, h3, fun _ _ => le_refl _, fun _ _ _ _ _ hp => by omega,
      fun _ _ _ _ _ => rfl, fun _ _ => rfl, fun _ _ hp => by omega⟩ (by
      rintro p ⟨data2, meta2⟩ hp ⟨D2, w, k1, k2, k3, k4, k5, k6, k7⟩
      simp only at k1 k2 k6 k7
      obtain ⟨ant, ea, la, ha⟩ := antennaRms_exact hsq k1 hA hp
      obtain ⟨D3, data3, meta3, e3, g1, g2, g3, g4, g5, g6⟩ := normalizeAntennas_spec
        (RF := Fl.exact) k1 hA hp la ea meta2 (by omega)
      have hv : ∀ a, ∃ q : ℚ, 0 ≤ q ∧ (a < nAnt → ant.get a = .fin q) := by
        intro a
        by_cases hlt : a < nAnt
        · obtain ⟨q, e, hq⟩ := ha a hlt
          exact ⟨q, hq, fun _ => e⟩
        · exact ⟨0, le_refl _, fun h => absurd h hlt⟩
      choose u hu1 hu2 using hv
      refine ⟨(data3, meta3), e3, D3, fun p' a => if p' = p then u a else w p' a, g1, by simp only; omega, ?_, ?_,
        ?_, ?_, ?_⟩
      · intro p' a
        simp only
        split
        · exact hu1 a
        · exact k3 p' a
      · intro r c p' hr hc hp'
        by_cases hpp : p' = p
        · subst hpp
          simp only [if_true]
          rw [g2 r c hr hc, k5 r c p' hp (Nat.le_refl _), hu2 _ (hA r hr).1, hu2 _ (hA r hr).2]
        · simp only [hpp, if_false]
          rw [g3 r c p' (by omega) hpp, k4 r c p' hr hc (by omega)]
      · intro r c p' hp' hle
        rw [g3 r c p' hp' (by omega), k5 r c p' hp' (by omega)]
      · intro i hi
        rw [g6 i (fun a _ => by omega), k6 i hi]
      · intro p' a hp' ha'
        by_cases hpp : p' = p
        · subst hpp
          simp only [if_true]
          rw [g5 a ha', cast_exact, hu2 a ha']
        · simp only [hpp, if_false]
          rw [g6, k7 p' a (by omega) ha']
          intro a' ha'' he
          have : p' * nAnt + a = p * nAnt + a' := by
            rw [Nat.mul_comm p', Nat.mul_comm p]; omega
          exact hpp (flat_inj ha' ha'' this).1)
  refine ⟨D2, w, st, ?_, k1, k2, k3, ?_, ?_, k7⟩
  · unfold normalize
    rw [e1, Option.bind_some, e2, Option.bind_some, e3]
  · intro r c p hr hc hp
    rw [k4 r c p hr hc hp, h2 r _ hr (chan_lt hc hp), m1 _ (chan_lt hc hp)]
  · intro i hR hi
    rw [k6 i hi, h4 i hR hi, cast_exact, m1 i hi]

/-! ## C25 and the exact part of C26 and C27 -/

theorem inRange_exact {L : ℚ} (hL : 0 < L) (B0 : ℚ) (hB0 : 0 < B0) :
    InRange Fl.exact 0 (fun _ => True) 0 L 0 B0 0 where
  toAcc := acc_exact
  L_pos := hL
  lo_lo1 := le_refl _
  T_quot _ _ _ := trivial
  T_small := ⟨trivial, trivial⟩
  lo0_nonneg := le_refl _
  B0_pos := hB0
  quot_lo := (div_pos hL hB0).le
  quot_T _ _ _ := trivial
  lo1_le := by simp

/-- Any finite collection of visibilities has a bound. -/
theorem exists_bound (nR n : Nat) (A : Nat → Nat × Nat) (D : Nat → Nat → Cx) :
    ∃ B, 0 < B ∧ CrossOk nR n A D 0 B := by
  have key : ∀ k, ∃ B : ℚ, 0 < B ∧ ∀ j m, j < k → Counted (D (j / n) (j % n)) m → m ≤ B := by
    intro k
    induction k with
    | zero => exact ⟨1, one_pos, fun j m hj => by omega⟩
    | succ k ih =>
      obtain ⟨B, h0, hB⟩ := ih
      by_cases hc : ∃ m, Counted (D (k / n) (k % n)) m
      · obtain ⟨m, hm⟩ := hc
        refine ⟨max B m, lt_of_lt_of_le h0 (le_max_left _ _), ?_⟩
        intro j m' hj hm'
        rcases Nat.lt_or_eq_of_le (Nat.le_of_lt_succ hj) with h | h
        · exact le_trans (hB j m' h hm') (le_max_left _ _)
        · rw [h] at hm'
          rw [hm'.unique hm]
          exact le_max_right _ _
      · refine ⟨B, h0, ?_⟩
        intro j m' hj hm'
        rcases Nat.lt_or_eq_of_le (Nat.le_of_lt_succ hj) with h | h
        · exact hB j m' h hm'
        · rw [h] at hm'
          exact absurd ⟨m', hm'⟩ hc
  obtain ⟨B, h0, hB⟩ := key (nR * n)
  refine ⟨B, h0, ?_⟩
  intro r i hr hi _ m hm
  have := hB (r * n + i) m (flat_lt hr hi)
  rw [flat_div hi, flat_mod hi] at this
  exact ⟨this hm, fun a _ => Or.inr (abs_nonneg a)⟩

theorem nonfinite_mul {x : Fl} {f : ℚ} (h : x.isFinite = false) :
    (Fl.mul Fl.exact x (.fin f)).isFinite = false := by
  cases x with
  | fin a => simp [Fl.isFinite] at h
  | inf s => by_cases hf : f = 0 <;> simp [Fl.mul, hf, Fl.isFinite]
  | nan => rfl

/-- C25: for a block in exact arithmetic `encode` ends, and quantises samples `Y` with the metadata
`metaB'` such that:
* a sample with finite components satisfies `Y * channel factor * antenna factor * antenna factor =
  original` if both stored antenna factors are non-zero, and is zero if one of them is zero;
* samples that are not finite stay not finite.
C26, exact part: the cross-correlations of `Y` are within the largest level. C27, exact part: there is a
number of iterations `N` that is enough. -/
theorem af_encode {sq : Fl → Fl} (hsq : SqrtLike sq) {enc : Fl → Nat → Option Nat} {q : Nat}
    (hq : Total enc q) {L : ℚ} (hL : 0 < L) (hc0 : 0 < nCh) {dith : Nat → Nat}
    (h : Holds nR (nPol * nCh) A D data) (hA : AntennasBelow nR nAnt A) (metaB : Buf Fl)
    (hb : nPol * nCh + nAnt * nPol ≤ metaB.len) (sym : Buf Nat)
    (hs : nR * (nPol * nCh) * 2 ≤ sym.len) :
    ∃ (N : Nat) (metaB' : Buf Fl) (sym' : Buf Nat) (Y : Nat → Nat → Cx),
      (∀ fuel, N ≤ fuel → encode Fl.exact Fl.exact sq enc (.fin L) nPol nCh nAnt dith fuel data metaB sym
        = some (some (metaB', sym'))) ∧
      metaB'.len = metaB.len ∧ sym'.len = sym.len ∧
      (∀ j, j < nR * (nPol * nCh) * 2 → sym'.get j < q) ∧
      (∀ j, nR * (nPol * nCh) * 2 ≤ j → sym'.get j = sym.get j) ∧
      (∀ r i, r < nR → i < nPol * nCh →
        enc (Y r i).re (dith ((r * (nPol * nCh) + i) * 2)) =
          some (sym'.get ((r * (nPol * nCh) + i) * 2)) ∧
        enc (Y r i).im (dith ((r * (nPol * nCh) + i) * 2 + 1)) =
          some (sym'.get ((r * (nPol * nCh) + i) * 2 + 1))) ∧
      (∀ r c p x y, r < nR → c < nCh → p < nPol → D r (c * nPol + p) = ⟨.fin x, .fin y⟩ →
        ∃ g g1 g2 u v, metaB'.get (c * nPol + p) = .fin g ∧
          metaB'.get (nPol * nCh + (nAnt * p + (A r).1)) = .fin g1 ∧
          metaB'.get (nPol * nCh + (nAnt * p + (A r).2)) = .fin g2 ∧
          Y r (c * nPol + p) = ⟨.fin u, .fin v⟩ ∧
          (g1 ≠ 0 → g2 ≠ 0 → u * g * (g1 * g2) = x ∧ v * g * (g1 * g2) = y) ∧
          (g1 = 0 ∨ g2 = 0 → u = 0 ∧ v = 0)) ∧
      (∀ r i, r < nR → i < nPol * nCh →
        ((D r i).re.isFinite = false → (Y r i).re.isFinite = false) ∧
        ((D r i).im.isFinite = false → (Y r i).im.isFinite = false)) ∧
      (∀ r i m, r < nR → i < nPol * nCh → (A r).1 ≠ (A r).2 → Counted (Y r i) m → m ≤ L) := by
  obtain ⟨D0, w, ⟨data0, meta0⟩, e0, h1, h2, h3, h4, h5, h6⟩ := normalize_exact hsq h hA metaB hb
  simp only at h1 h2 h5 h6
  obtain ⟨B, hB0, hB⟩ := exists_bound nR (nPol * nCh) A D0
  obtain ⟨N, Y, ⟨data1, meta1⟩, e1, k1, k2, k3, k4⟩ := fitToMaximum_spec
    (inRange_exact hL B hB0) hA hc0 (adjusted_kept (nR := nR) (A := A) (nAnt := nAnt) D0 meta0 (by omega))
    h1 meta0 (by omega) hB (Adjusted.refl h1)
  simp only at k1 k2
  obtain ⟨sym', e2, g1, g2, g3, g4⟩ := quantise_total (RF := Fl.exact) hq (dith := dith) k1 sym hs
  obtain ⟨D', x, y, q1, q2, q3, q4, q5, q6, q7⟩ := k3
  simp only at q1 q2 q6 q7
  have hY : ∀ r c p, r < nR → c < nCh → p < nPol → Y r (c * nPol + p) =
      (D0 r (c * nPol + p)).scale Fl.exact (.fin (x (c * nPol + p) * (y p (A r).1 * y p (A r).2))) := by
    intro r c p hr hc hp
    have hi := chan_lt (nPol := nPol) hc hp
    rw [← k1.vis r _ hr hi, q1.vis r _ hr hi, q5 r c p hr hc hp]
  have hpos : ∀ i p a b, 0 < x i * (y p a * y p b) :=
    fun i p a b => mul_pos (q3 i) (mul_pos (q4 _ _) (q4 _ _))
  refine ⟨N, meta1, sym', Y, ?_, by omega, g1, g2, g3, ?_, ?_, ?_, ?_⟩
  · intro fuel hf
    unfold encode
    rw [e0, Option.bind_some, e1 fuel hf, Option.bind_some]
    simp only
    rw [e2]
    rfl
  · intro r i hr hi
    have := g4 r i hr hi
    rw [cast_exact, cast_exact] at this
    exact this
  · intro r c p vx vy hr hc hp hv
    have hi := chan_lt (nPol := nPol) hc hp
    have ha := hA r hr
    have hD0 := h4 r c p hr hc hp
    have hm1 := h5 _ (by omega : 0 < nR) hi
    obtain ⟨s, hs, hs0, hsz⟩ : ∃ s, rms Fl.exact sq (measFold Fl.exact
        (fun r => D r (c * nPol + p)) nR) = .fin s ∧ 0 ≤ s ∧ (s = 0 → vx = 0 ∧ vy = 0) := by
      rcases rms_exact hsq (fun r => D r (c * nPol + p)) nR with ⟨hn, _⟩ | ⟨_, s, e, hs0, hz⟩
      · exact absurd ⟨vx, vy, hv⟩ (hn r hr)
      · exact ⟨s, e, hs0, fun h => hz h r vx vy hr hv⟩
    rw [hs] at hm1 hD0
    -- the normalised sample
    obtain ⟨f, hf, hf1, hf2⟩ : ∃ f, antFactor Fl.exact (.fin (w p (A r).1)) (.fin (w p (A r).2)) =
        .fin f ∧ (w p (A r).1 = 0 ∨ w p (A r).2 = 0 → f = 0) ∧
        (w p (A r).1 ≠ 0 → w p (A r).2 ≠ 0 → f * (w p (A r).1 * w p (A r).2) = 1) := by
      unfold antFactor
      rw [mul_exact]
      by_cases h0 : w p (A r).1 * w p (A r).2 = 0
      · refine ⟨0, by simp [Fl.eq, h0], fun _ => rfl, fun a b => absurd h0 (mul_ne_zero a b)⟩
      · refine ⟨1 / (w p (A r).1 * w p (A r).2), ?_, ?_, fun _ _ => by field_simp⟩
        · rw [div_exact _ h0]
          simp only [Fl.eq, decide_eq_true_eq, if_neg h0]
        · rintro (h | h)
          · exact absurd (by rw [h, zero_mul]) h0
          · exact absurd (by rw [h, mul_zero]) h0
    obtain ⟨d, hd1, hd2⟩ : ∃ d : ℚ, divRms Fl.exact (.fin s) (D r (c * nPol + p)) =
        ⟨.fin (vx * d), .fin (vy * d)⟩ ∧ vx * d * s = vx ∧ vy * d * s = vy := by
      unfold divRms
      by_cases h0 : s = 0
      · obtain ⟨z1, z2⟩ := hsz h0
        refine ⟨1, ?_, ?_, ?_⟩
        · simp [Fl.eq, h0, hv]
        · rw [z1]; ring
        · rw [z2]; ring
      · refine ⟨1 / s, ?_, by field_simp, by field_simp⟩
        have : Fl.eq (.fin s) (.fin 0) = false := by simp [Fl.eq, h0]
        rw [this, hv]
        simp only [Bool.false_eq_true, if_false, Cx.divBy, div_exact _ h0]
        rw [mul_one_div, mul_one_div]
    set t := x (c * nPol + p) * (y p (A r).1 * y p (A r).2) with ht
    refine ⟨s / x (c * nPol + p), w p (A r).1 / y p (A r).1, w p (A r).2 / y p (A r).2,
      vx * d * f * t, vy * d * f * t, ?_, ?_, ?_, ?_, ?_, ?_⟩
    · rw [q6 _ hi, hm1, div_exact _ (q3 _).ne']
    · rw [q7 p _ hp ha.1, h6 p _ hp ha.1, div_exact _ (q4 _ _).ne']
    · rw [q7 p _ hp ha.2, h6 p _ hp ha.2, div_exact _ (q4 _ _).ne']
    · rw [hY r c p hr hc hp, hD0, hf, hd1]
      rfl
    · intro n1 n2
      have w1 : w p (A r).1 ≠ 0 := fun h => n1 (by rw [h, zero_div])
      have w2 : w p (A r).2 ≠ 0 := fun h => n2 (by rw [h, zero_div])
      have hx := (q3 (c * nPol + p)).ne'
      have hy1 := (q4 p (A r).1).ne'
      have hy2 := (q4 p (A r).2).ne'
      have hfac : ∀ v : ℚ, v * d * f * t * (s / x (c * nPol + p)) *
          (w p (A r).1 / y p (A r).1 * (w p (A r).2 / y p (A r).2)) =
          v * d * s * (f * (w p (A r).1 * w p (A r).2)) := by
        intro v
        rw [ht]
        field_simp
      rw [hfac, hfac, hf2 w1 w2, mul_one, mul_one]
      exact hd2
    · intro hz
      have : f = 0 := by
        apply hf1
        rcases hz with h | h
        · left; exact (div_eq_zero_iff.mp h).resolve_right (q4 _ _).ne'
        · right; exact (div_eq_zero_iff.mp h).resolve_right (q4 _ _).ne'
      rw [this]
      constructor <;> ring
  · intro r i hr hi
    have hp0 : 0 < nPol := Nat.pos_of_ne_zero (by rintro rfl; simp at hi)
    have hp := Nat.mod_lt i hp0
    have hc : i / nPol < nCh := Nat.div_lt_of_lt_mul hi
    have ei : i / nPol * nPol + i % nPol = i := by rw [Nat.mul_comm]; exact Nat.div_add_mod i nPol
    have hY' := hY r (i / nPol) (i % nPol) hr hc hp
    have hD' := h4 r (i / nPol) (i % nPol) hr hc hp
    rw [ei] at hY' hD'
    obtain ⟨f, hf⟩ : ∃ f, antFactor Fl.exact (.fin (w (i % nPol) (A r).1)) (.fin (w (i % nPol) (A r).2))
        = .fin f := by
      unfold antFactor
      rw [mul_exact]
      by_cases h0 : w (i % nPol) (A r).1 * w (i % nPol) (A r).2 = 0
      · exact ⟨0, by simp [Fl.eq, h0]⟩
      · exact ⟨1 / (w (i % nPol) (A r).1 * w (i % nPol) (A r).2),
          by rw [div_exact _ h0]; simp only [Fl.eq, decide_eq_true_eq, if_neg h0]⟩
    rw [hf] at hD'
    rw [hY', hD']
    have hdiv : ∀ z : Fl, z.isFinite = false →
        (Fl.div Fl.exact z (rms Fl.exact sq (measFold Fl.exact (fun r => D r i) nR))).isFinite = false := by
      intro z hz
      rcases rms_exact hsq (fun r => D r i) nR with ⟨_, e⟩ | ⟨_, s, e, _⟩
      · rw [e]; cases z <;> rfl
      · rw [e]
        cases z with
        | fin a => simp [Fl.isFinite] at hz
        | inf n => rfl
        | nan => rfl
    constructor
    · intro hre
      simp only [Cx.scale]
      apply nonfinite_mul
      apply nonfinite_mul
      unfold divRms
      split
      · exact hre
      · exact hdiv _ hre
    · intro hre
      simp only [Cx.scale]
      apply nonfinite_mul
      apply nonfinite_mul
      unfold divRms
      split
      · exact hre
      · exact hdiv _ hre
  · intro r i m hr hi hcr hm
    have := (k4 r i hr hi hcr m hm).1
    simpa [B2] using this

/-! ## Decoding -/

theorem initAntennas_spec (metaB : Buf Fl) (hb : nPol * nCh + nAnt * nPol ≤ metaB.len) :
    ∃ ant, initAntennas nPol nCh nAnt metaB = some ant ∧ ant.len = nAnt * nPol ∧
      ∀ a p, a < nAnt → p < nPol → ant.get (a * nPol + p) = metaB.get (nPol * nCh + (nAnt * p + a)) := by
  obtain ⟨ant, e, h1, h2⟩ := forRange_inv nPol (fun p ant => forRange nAnt (fun a (ant : Buf Fl) =>
      (metaB.rd (nPol * nCh + (a + p * nAnt))).bind fun x => ant.wr (a * nPol + p) x) ant)
    ⟨nAnt * nPol, fun _ => .nan⟩
    (fun k ant => ant.len = nAnt * nPol ∧ ∀ a p, a < nAnt → p < k →
      ant.get (a * nPol + p) = metaB.get (nPol * nCh + (nAnt * p + a)))
    ⟨rfl, fun _ _ _ hp => by omega⟩ (by
      rintro p ant hp ⟨h1, h2⟩
      obtain ⟨ant', e, g1, g2, g3⟩ := forRange_inv nAnt (fun a (ant : Buf Fl) =>
          (metaB.rd (nPol * nCh + (a + p * nAnt))).bind fun x => ant.wr (a * nPol + p) x) ant
        (fun k ant' => ant'.len = nAnt * nPol ∧ (∀ a, a < k →
          ant'.get (a * nPol + p) = metaB.get (nPol * nCh + (nAnt * p + a))) ∧
          (∀ j, (∀ a, a < k → j ≠ a * nPol + p) → ant'.get j = ant.get j))
        ⟨h1, fun _ ha => by omega, fun _ _ => rfl⟩ (by
          rintro k t hk ⟨g1, g2, g3⟩
          have hidx : k + p * nAnt < nAnt * nPol := by
            have : p * nAnt + k < nPol * nAnt := flat_lt hp hk
            rw [Nat.mul_comm nAnt nPol]
            omega
          have hidx2 : k * nPol + p < nAnt * nPol := flat_lt hk hp
          rw [Buf.rd_some (by omega), Option.bind_some, Buf.wr_some (by omega)]
          refine ⟨_, rfl, g1, ?_, ?_⟩
          · intro a ha
            by_cases hak : a = k
            · subst hak
              simp only [if_true]
              rw [Nat.mul_comm p, Nat.add_comm a]
            · have : ¬ (a * nPol + p = k * nPol + p) := fun h => hak (flat_inj hp hp h).1
              simp only [this, if_false]
              exact g2 a (by omega)
          · intro j hj
            have : j ≠ k * nPol + p := hj k (by omega)
            simp only [this, if_false]
            exact g3 j (fun a ha => hj a (by omega)))
      refine ⟨ant', e, g1, ?_⟩
      intro a p' ha hp'
      by_cases hpp : p' = p
      · rw [hpp]; exact g2 a ha
      · rw [g3 _ (fun a' _ he => hpp (flat_inj (by omega : p' < nPol) hp he).2)]
        exact h2 a p' ha (by omega))
  exact ⟨ant, e, h1, h2⟩

/-- What `decode` of row `r` gives. -/
theorem decode_spec {RF RD : ℚ → Fl} {e : Encoder} {b l : Nat → ℚ} {L : ℚ} (hT : Table e b l L)
    (metaB : Buf Fl) (sym : Buf Nat) (dest : Block Cx) (r a1 a2 : Nat) (hr : r < dest.len)
    (ha1 : a1 < nAnt) (ha2 : a2 < nAnt)
    (hm : nPol * nCh + nAnt * nPol ≤ metaB.len)
    (hs : (r * (nPol * nCh) + nPol * nCh) * 2 ≤ sym.len)
    (hq : ∀ j, j < (r * (nPol * nCh) + nPol * nCh) * 2 → sym.get j < e.quantCount) :
    ∃ dest', decode RF RD e.decode nPol nCh nAnt metaB dest sym r a1 a2 = some dest' ∧
      dest'.len = dest.len ∧ (∀ j, j ≠ r → dest'.get j = dest.get j) ∧
      (dest'.get r).antenna1 = a1 ∧ (dest'.get r).antenna2 = a2 ∧
      (dest'.get r).vis.len = nPol * nCh ∧
      ∀ i, i < nPol * nCh → (dest'.get r).vis.get i =
        ⟨Fl.cast RF (Fl.mul RD (e.level (sym.get ((r * (nPol * nCh) + i) * 2)))
          (Fl.mul RD (metaB.get i) (Fl.mul RD (metaB.get (nPol * nCh + (nAnt * (i % nPol) + a1)))
            (metaB.get (nPol * nCh + (nAnt * (i % nPol) + a2)))))),
         Fl.cast RF (Fl.mul RD (e.level (sym.get ((r * (nPol * nCh) + i) * 2 + 1)))
          (Fl.mul RD (metaB.get i) (Fl.mul RD (metaB.get (nPol * nCh + (nAnt * (i % nPol) + a1)))
            (metaB.get (nPol * nCh + (nAnt * (i % nPol) + a2))))))⟩ := by
  obtain ⟨ant, ea, la, hant⟩ := initAntennas_spec (nCh := nCh) metaB hm
  obtain ⟨fs, ef, lf, hfs⟩ := forRange_inv nPol (fun p (fs : Buf Fl) =>
      (ant.rd (a1 * nPol + p)).bind fun r1 =>
      (ant.rd (a2 * nPol + p)).bind fun r2 => fs.wr p (Fl.mul RD r1 r2)) ⟨nPol, fun _ => .nan⟩
    (fun k fs => fs.len = nPol ∧ ∀ p, p < k → fs.get p =
      Fl.mul RD (metaB.get (nPol * nCh + (nAnt * p + a1))) (metaB.get (nPol * nCh + (nAnt * p + a2))))
    ⟨rfl, fun _ hp => by omega⟩ (by
      rintro p fs hp ⟨h1, h2⟩
      have i1 : a1 * nPol + p < nAnt * nPol := flat_lt ha1 hp
      have i2 : a2 * nPol + p < nAnt * nPol := flat_lt ha2 hp
      rw [Buf.rd_some (by omega), Option.bind_some, Buf.rd_some (by omega), Option.bind_some,
        Buf.wr_some (by omega), hant a1 p ha1 hp, hant a2 p ha2 hp]
      refine ⟨_, rfl, h1, ?_⟩
      intro p' hp'
      by_cases hpp : p' = p
      · simp [hpp]
      · simp only [hpp, if_false]
        exact h2 p' (by omega))
  unfold decode
  rw [ea, Option.bind_some, ef, Option.bind_some]
  refine decodeRow_spec (n := nPol * nCh) (RF := RF) (RD := RD) (dec := e.decode)
    (factor := fun i => (metaB.rd i).bind fun ch =>
      (fs.rd (i % nPol)).map fun f => Fl.mul RD ch f)
    dest sym r a1 a2 hr hs
    (fun i => Fl.mul RD (metaB.get i) (Fl.mul RD (metaB.get (nPol * nCh + (nAnt * (i % nPol) + a1)))
      (metaB.get (nPol * nCh + (nAnt * (i % nPol) + a2)))))
    ?_ (fun j => e.level (sym.get j)) (fun j _ hj => hT.decode_some (hq j hj))
  intro i hi
  have hp0 : 0 < nPol := Nat.pos_of_ne_zero (by rintro rfl; simp at hi)
  have hp := Nat.mod_lt i hp0
  rw [Buf.rd_some (show i < metaB.len by omega), Option.bind_some,
    Buf.rd_some (show i % nPol < fs.len by omega), hfs _ hp]
  rfl

/-- **C25**, and what it means for decoding: exact arithmetic. `encode` ends, and decoding row `r` with
its antennas gives:
* zero for a finite sample of which an antenna has stored factor zero (an antenna with zero RMS),
* otherwise, for a cross-correlation, the sample with an error of at most the quantiser's error times the
  three stored factors,
* NaN for components that were not finite. -/
theorem af_roundtrip {sq : Fl → Fl} (hsq : SqrtLike sq) {e : Encoder} {b l : Nat → ℚ} {L : ℚ}
    (hT : Table e b l L) (dithered : Bool) {δ : ℚ}
    (hacc : Accurate (encFn Fl.exact e dithered) e.decode L δ) (hc0 : 0 < nCh) (dith : Nat → Nat)
    (h : Holds nR (nPol * nCh) A D data) (hA : AntennasBelow nR nAnt A) (metaB : Buf Fl)
    (hb : nPol * nCh + nAnt * nPol ≤ metaB.len) (sym : Buf Nat)
    (hs : nR * (nPol * nCh) * 2 ≤ sym.len) :
    ∃ (N : Nat) (metaB' : Buf Fl) (sym' : Buf Nat),
      (∀ fuel, N ≤ fuel → encode Fl.exact Fl.exact sq (encFn Fl.exact e dithered) e.maxQuantity nPol
        nCh nAnt dith fuel data metaB sym = some (some (metaB', sym'))) ∧
      ∀ (dest : Block Cx) (r : Nat), r < nR → r < dest.len →
        ∃ dest', decode Fl.exact Fl.exact e.decode nPol nCh nAnt metaB' dest sym' r (A r).1 (A r).2 =
            some dest' ∧
          ((dest'.get r).antenna1, (dest'.get r).antenna2) = A r ∧
          (∀ j, j ≠ r → dest'.get j = dest.get j) ∧
          (∀ i, i < nPol * nCh →
            ((D r i).re.isFinite = false → ((dest'.get r).vis.get i).re = .nan) ∧
            ((D r i).im.isFinite = false → ((dest'.get r).vis.get i).im = .nan)) ∧
          ∀ c p x y, c < nCh → p < nPol → D r (c * nPol + p) = ⟨.fin x, .fin y⟩ →
            ∃ g g1 g2, metaB'.get (c * nPol + p) = .fin g ∧
              metaB'.get (nPol * nCh + (nAnt * p + (A r).1)) = .fin g1 ∧
              metaB'.get (nPol * nCh + (nAnt * p + (A r).2)) = .fin g2 ∧
              ((g1 = 0 ∨ g2 = 0) → (dest'.get r).vis.get (c * nPol + p) = ⟨.fin 0, .fin 0⟩) ∧
              (g1 ≠ 0 → g2 ≠ 0 → (A r).1 ≠ (A r).2 → ∃ x' y',
                (dest'.get r).vis.get (c * nPol + p) = ⟨.fin x', .fin y'⟩ ∧
                |x' - x| ≤ δ * |g * (g1 * g2)| ∧ |y' - y| ≤ δ * |g * (g1 * g2)|) := by
  obtain ⟨N, metaB', sym', Y, e1, l1, l2, hsq', _, henc, hundo, hnan, hcross⟩ := af_encode hsq
    (hT.total Fl.exact dithered) hT.pos hc0 (dith := dith) h hA metaB hb sym hs
  rw [← hT.maxQuantity] at e1
  refine ⟨N, metaB', sym', e1, ?_⟩
  intro dest r hr hd
  have hrow : (r * (nPol * nCh) + nPol * nCh) * 2 ≤ nR * (nPol * nCh) * 2 := by
    have : (r + 1) * (nPol * nCh) ≤ nR * (nPol * nCh) := Nat.mul_le_mul_right _ hr
    rw [Nat.add_mul, Nat.one_mul] at this
    omega
  obtain ⟨dest', e2, _, d2, d3, d4, _, d6⟩ := decode_spec (RF := Fl.exact) (RD := Fl.exact)
    (nPol := nPol) (nCh := nCh) hT metaB' sym' dest r (A r).1 (A r).2 hd (hA r hr).1 (hA r hr).2
    (by omega) (by omega) (fun j hj => hsq' j (by omega))
  refine ⟨dest', e2, by rw [d3, d4], d2, ?_, ?_⟩
  · intro i hi
    obtain ⟨c1, c2⟩ := henc r i hr hi
    rw [d6 i hi]
    constructor
    · intro hf
      rw [hT.nonfinite Fl.exact dithered ((hnan r i hr hi).1 hf) _ c1]
      rfl
    · intro hf
      rw [hT.nonfinite Fl.exact dithered ((hnan r i hr hi).2 hf) _ c2]
      rfl
  · intro c p x y hc hp hv
    have hi := chan_lt (nPol := nPol) hc hp
    obtain ⟨g, g1, g2, u, v, m1, m2, m3, hY, hu, hz⟩ := hundo r c p x y hr hc hp hv
    obtain ⟨c1, c2⟩ := henc r _ hr hi
    rw [hY] at c1 c2
    simp only at c1 c2
    have hd6 := d6 _ hi
    rw [flat_mod hp, m1, m2, m3, mul_exact, mul_exact] at hd6
    refine ⟨g, g1, g2, m1, m2, m3, ?_, ?_⟩
    · intro h0
      obtain ⟨z1, z2⟩ := hz h0
      rw [z1] at c1
      rw [z2] at c2
      have hf0 : (0 : ℚ) ≤ fltMax := by norm_num [fltMax]
      obtain ⟨y1, q1⟩ := hT.finite Fl.exact dithered hf0 _ c1
      obtain ⟨y2, q2⟩ := hT.finite Fl.exact dithered hf0 _ c2
      have hg : g1 * g2 = 0 := by
        rcases h0 with h | h
        · rw [h, zero_mul]
        · rw [h, mul_zero]
      rw [hd6, q1, q2, hg, mul_zero, mul_exact, mul_exact, mul_zero, mul_zero]
      rfl
    · intro n1 n2 hcr
      obtain ⟨u1, u2⟩ := hu n1 n2
      have hcnt : Counted (Y r (c * nPol + p)) (max |u| |v|) := by
        rw [hY]; exact ⟨u, rfl, Or.inl ⟨v, rfl, rfl⟩⟩
      have hle := hcross r _ _ hr hi hcr hcnt
      obtain ⟨s1, y1, a1, a2, a3⟩ := hacc u (dith ((r * (nPol * nCh) + (c * nPol + p)) * 2))
        (le_trans (le_max_left _ _) hle)
      obtain ⟨s2, y2, b1, b2, b3⟩ := hacc v (dith ((r * (nPol * nCh) + (c * nPol + p)) * 2 + 1))
        (le_trans (le_max_right _ _) hle)
      rw [a1] at c1
      rw [b1] at c2
      have es1 := Option.some.inj c1
      have es2 := Option.some.inj c2
      have lv1 : e.level s1 = .fin y1 := by
        have := hT.decode_some (s := s1) (by rw [es1]; exact hsq' _ (by omega))
        rw [a2] at this
        exact (Option.some.inj this).symm
      have lv2 : e.level s2 = .fin y2 := by
        have := hT.decode_some (s := s2) (by rw [es2]; exact hsq' _ (by omega))
        rw [b2] at this
        exact (Option.some.inj this).symm
      refine ⟨y1 * (g * (g1 * g2)), y2 * (g * (g1 * g2)), ?_, ?_, ?_⟩
      · rw [hd6, ← es1, ← es2, lv1, lv2]
        rfl
      · rw [← u1, mul_assoc u, ← sub_mul, abs_mul]
        exact mul_le_mul_of_nonneg_right a3 (abs_nonneg _)
      · rw [← u2, mul_assoc v, ← sub_mul, abs_mul]
        exact mul_le_mul_of_nonneg_right b3 (abs_nonneg _)

/-! ## C26 and C27 in double arithmetic -/

theorem inRange_r64 {L : ℚ} (hL1 : (2 : ℚ) ^ (-149 : ℤ) ≤ L) (hL2 : L < 2 ^ (128 : ℤ)) :
    InRange Fl.r64 (2 ^ (-1022 : ℤ)) (fun x => x ≤ 2 ^ (1000 : ℤ)) (2 ^ (-53 : ℤ)) L
      (2 ^ (-300 : ℤ)) (2 ^ (300 : ℤ)) (2 ^ (-751 : ℤ)) := by
  have z : ∀ {i j : ℤ}, i ≤ j → (2 : ℚ) ^ i ≤ 2 ^ j := fun h => zpow_le_zpow_right₀ (by norm_num) h
  have hL : 0 < L := lt_of_lt_of_le (Fl.zp_pos _) hL1
  have hq : ∀ (k : ℤ) M, 0 < M → (2 : ℚ) ^ k ≤ M → L / M ≤ 2 ^ (128 - k) := by
    intro k M hM hk
    rw [div_le_iff₀ hM]
    refine le_trans hL2.le ?_
    have : (2 : ℚ) ^ (128 : ℤ) = 2 ^ (128 - k) * 2 ^ k := by
      rw [← zpow_add₀ (by norm_num)]; congr 1; ring
    rw [this]
    exact mul_le_mul_of_nonneg_left hk (Fl.zp_pos _).le
  have h4 : (4 : ℚ) = 2 ^ (2 : ℤ) := by norm_num
  have hB : (2 : ℚ) ^ (-449 : ℤ) ≤ L / 2 ^ (300 : ℤ) := by
    rw [le_div_iff₀ (Fl.zp_pos _), ← zpow_add₀ (by norm_num)]
    exact hL1
  exact
  { toAcc := acc_r64
    L_pos := hL
    lo_lo1 := z (by norm_num)
    T_quot := by
      intro M hM hM1
      have := hq _ M hM hM1
      rw [h4]
      refine le_trans (mul_le_mul_of_nonneg_left this (Fl.zp_pos _).le) ?_
      rw [← zpow_add₀ (by norm_num)]
      exact z (by norm_num)
    T_small := by
      constructor
      · rw [h4]
        refine le_trans (mul_le_mul_of_nonneg_left hL2.le (Fl.zp_pos _).le) ?_
        rw [← zpow_add₀ (by norm_num)]
        exact z (by norm_num)
      · rw [h4]
        exact z (by norm_num)
    lo0_nonneg := (Fl.zp_pos _).le
    B0_pos := Fl.zp_pos _
    quot_lo := le_trans (z (by norm_num)) hB
    quot_T := by
      intro M hM hM1
      exact le_trans (hq _ M hM hM1) (z (by norm_num))
    lo1_le := by
      have hε : (1 / 2 : ℚ) ≤ 1 - 2 ^ (-53 : ℤ) := by norm_num
      have s1 : (2 : ℚ) ^ (-449 : ℤ) * (1 / 2) ≤ L / 2 ^ (300 : ℤ) * (1 - 2 ^ (-53 : ℤ)) :=
        mul_le_mul hB hε (by norm_num) (le_trans (Fl.zp_pos _).le hB)
      have s2 : (2 : ℚ) ^ (-300 : ℤ) * (2 ^ (-449 : ℤ) * (1 / 2)) * (1 / 2) ≤
          2 ^ (-300 : ℤ) * (L / 2 ^ (300 : ℤ) * (1 - 2 ^ (-53 : ℤ))) * (1 - 2 ^ (-53 : ℤ)) := by
        apply mul_le_mul (mul_le_mul_of_nonneg_left s1 (Fl.zp_pos _).le) hε (by norm_num)
        exact mul_nonneg (Fl.zp_pos _).le (le_trans (mul_nonneg (Fl.zp_pos _).le (by norm_num)) s1)
      refine le_trans (le_of_eq ?_) s2
      rw [show (1 / 2 : ℚ) = 2 ^ (-1 : ℤ) by norm_num, ← zpow_add₀ (by norm_num),
        ← zpow_add₀ (by norm_num), ← zpow_add₀ (by norm_num)]
      norm_num }

/-- **C26** and **C27** in double arithmetic: the fit of a block of which the finite non-zero components of
the counted cross-correlations have magnitudes between `2^-300` and `2^300` ends, and afterwards every
counted cross-correlation converts to floats within the largest level. -/
theorem af_fit_r64 {RF : ℚ → Fl} {L : ℚ} (hL : 0 < L) (hLr : Fl.Repr Fl.binary32 L)
    (hL2 : L < 2 ^ (128 : ℤ)) (hA : AntennasBelow nR nAnt A) (hc0 : 0 < nCh)
    (h : Holds nR (nPol * nCh) A D data) (metaB : Buf Fl) (hb : nPol * nCh + nAnt * nPol ≤ metaB.len)
    (hD : ∀ r i m, r < nR → i < nPol * nCh → (A r).1 ≠ (A r).2 → Counted (D r i) m →
      m ≤ 2 ^ (300 : ℤ) ∧ ∀ a, ((D r i).re = .fin a ∨ (D r i).im = .fin a) →
        a = 0 ∨ (2 : ℚ) ^ (-300 : ℤ) ≤ |a|) :
    ∃ N Y st, (∀ fuel, N ≤ fuel →
        fitToMaximum RF Fl.r64 nPol nCh nAnt (.fin L) fuel (data, metaB) = some (some st)) ∧
      Holds nR (nPol * nCh) A Y st.1 ∧ st.2.len = metaB.len ∧
      ∀ r i m, r < nR → i < nPol * nCh → (A r).1 ≠ (A r).2 → Counted (Y r i) m →
        ∀ a, ((Y r i).re = .fin a ∨ (Y r i).im = .fin a) →
          ∃ y, Fl.cast Fl.r32 (.fin a) = .fin y ∧ |y| ≤ L := by
  obtain ⟨N, Y, st, e, k1, k2, _, k4⟩ := fitToMaximum_spec (RF := RF)
    (inRange_r64 (Fl.repr32_ge hLr hL) hL2) hA hc0 (J := fun _ => True)
    ⟨fun _ _ _ _ _ _ _ _ => trivial, fun _ _ _ _ _ _ _ _ _ _ => trivial⟩ h metaB hb
    (fun r i hr hi hcr m hm => hD r i m hr hi hcr hm) trivial
  refine ⟨N, Y, st, e, k1, k2, ?_⟩
  intro r i m hr hi hcr hm a ha
  have hm2 := (k4 r i hr hi hcr m hm).1
  have ham : |a| ≤ m := by
    rcases ha with h | h
    · exact hm.re_le h
    · exact hm.im_le h
  have hle : |Fl.rnd Fl.binary32 a| ≤ L := by
    rw [Fl.abs_rnd]
    apply Fl.rnd_le_of_le_slack (by decide) hL hLr
    refine le_trans ham (le_trans hm2 ?_)
    unfold B2
    rw [mul_add, mul_one]
    apply add_le_add_right
    apply mul_le_mul_of_nonneg_left _ hL.le
    norm_num [Fl.binary32]
  exact ⟨_, Fl.r32_fin (lt_of_le_of_lt hle hL2), hle⟩

/-! ## Auto-correlations are not bounded -/

/-- An auto-correlation of antenna 0 and a cross-correlation. -/
def autoBlock : Block Cx :=
  ⟨2, fun r => if r = 0 then ⟨0, 0, ⟨1, fun _ => ⟨.fin 7, .fin 7⟩⟩⟩
    else ⟨0, 1, ⟨1, fun _ => ⟨.fin 1, .fin 1⟩⟩⟩⟩

/-- **C26**, negative part: after the fit the auto-correlation is 7 times the largest level. -/
theorem auto_not_bounded :
    (match fitToMaximum Fl.exact Fl.exact 1 1 2 (.fin 1) 1 (autoBlock, ⟨3, fun _ => .fin 1⟩) with
      | some (some st) => (rdVis st.1 0 0).map fun v => (v.re, v.im)
      | _ => none) = some (Fl.fin 7, Fl.fin 7) := by decide +kernel

/-! ## The hypotheses are met -/

/-- The block of `auto_not_bounded` meets the hypotheses of `af_roundtrip` and `af_fit_r64`. -/
example : Holds 2 (1 * 1) (fun r => if r = 0 then (0, 0) else (0, 1))
    (fun r _ => if r = 0 then ⟨.fin 7, .fin 7⟩ else ⟨.fin 1, .fin 1⟩) autoBlock ∧
    AntennasBelow 2 2 (fun r => if r = 0 then (0, 0) else (0, 1)) := by
  refine ⟨⟨rfl, ?_, ?_, ?_⟩, ?_⟩
  · intro r hr
    simp only [autoBlock]
    split <;> rfl
  · intro r hr
    simp only [autoBlock]
    split <;> rfl
  · intro r i hr hi
    simp only [autoBlock]
    split <;> rfl
  · intro r hr
    simp only
    split <;> simp

/-- There is a function with the properties that are used of the square root. -/
example : SqrtLike (fun x => x) :=
  ⟨rfl, fun x hx => ⟨x, hx, rfl⟩, rfl⟩

end Dysco.AF
