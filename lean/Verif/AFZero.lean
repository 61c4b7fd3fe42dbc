import Verif.AFModerate
import Verif.AFAuto

/-!
# C118: zeros and antenna-frequency normalisation

A channel in which every sample is zero (or flagged) gets the factor zero (aftimeblockencoder.cc:264-291), and is not divided by it;
the fit leaves that factor at zero, so that the decoder multiplies with zero. A block without any signal comes back as it was.
-/

namespace Dysco.AF
open TimeBlock Stochastic

variable {nR nPol nCh nAnt : Nat} {A : Nat → Nat × Nat} {D : Nat → Nat → Cx} {data : Block Cx}

/-! ## The factor of the antennas -/

theorem r32_tiny {x : ℚ} (h : |x| ≤ 2 ^ (-200 : ℤ)) : Fl.r32 x = .fin 0 := by
  have h0 : Fl.rnd Fl.binary32 ((2 : ℚ) ^ (-200 : ℤ)) = 0 := by decide +kernel
  have h1 := Fl.rnd_mono (f := Fl.binary32) (by decide) (abs_le.mp h).2
  have h2 := Fl.rnd_mono (f := Fl.binary32) (by decide) (abs_le.mp h).1
  rw [Fl.rnd_neg, h0, neg_zero] at h2
  rw [h0] at h1
  have : Fl.rnd Fl.binary32 x = 0 := le_antisymm h1 h2
  unfold Fl.r32 Fl.round
  rw [this]
  simp [Fl.binary32]

theorem r64_fin_ge {x m : ℚ} {k : ℤ} (hk : -1000 ≤ k) (h : Fl.r64 x = .fin m) (hx : (2 : ℚ) ^ k ≤ |x|) : (2 : ℚ) ^ k ≤ |m| := by
  have key : ∀ z : ℚ, (2 : ℚ) ^ k ≤ z → (2 : ℚ) ^ k ≤ Fl.rnd Fl.binary64 z := by
    intro z hz
    have := Fl.rnd_mono (f := Fl.binary64) (by decide) hz
    rwa [Fl.rnd_of_repr (by decide) (repr64_pow hk)] at this
  have hm : m = Fl.rnd Fl.binary64 x := by
    unfold Fl.r64 Fl.round at h
    split at h
    · exact (Fl.fin.inj h).symm
    · cases h
  rw [hm]
  rcases le_or_gt 0 x with h0 | h0
  · rw [abs_of_nonneg h0] at hx
    exact le_trans (key x hx) (le_abs_self _)
  · rw [abs_of_neg h0] at hx
    have := key _ hx
    rw [Fl.rnd_neg] at this
    exact le_trans this (neg_le_abs _)

theorem usable_ge {q : ℚ} (h : ¬Unusable (Fl.cast Fl.r32 (.fin q))) : (2 : ℚ) ^ (-200 : ℤ) ≤ |q| := by
  by_contra hlt
  exact h (.inl (r32_tiny (le_of_lt (not_le.mp hlt))))

/-- Antenna values that leave something in the file give a finite factor. -/
theorem antFactor_fin {x y : Fl} (hx : ¬Unusable (Fl.cast Fl.r32 x)) (hy : ¬Unusable (Fl.cast Fl.r32 y)) :
    ∃ F, antFactor Fl.r64 x y = .fin F := by
  have key : ∀ m, m ≠ .nan → (∀ q, m = .fin q → q = 0 ∨ (2 : ℚ) ^ (-400 : ℤ) ≤ |q|) →
      ∃ F, (if Fl.eq m (.fin 0) then Fl.fin 0 else Fl.div Fl.r64 (.fin 1) m) = .fin F := by
    intro m hm hq
    cases m with
    | nan => exact absurd rfl hm
    | inf s => exact ⟨0, by simp [Fl.eq, Fl.div]⟩
    | fin q =>
      rcases hq q rfl with rfl | h
      · exact ⟨0, by simp [Fl.eq]⟩
      · have hq0 : q ≠ 0 := by
          rintro rfl
          rw [abs_zero] at h
          exact absurd h (not_le.mpr (Fl.zp_pos _))
        obtain ⟨F, e, -⟩ := r64_between_abs (x := 1 / q) (a := 0) (b := (2 : ℚ) ^ (400 : ℤ)) (Fl.Repr.zero _)
          (repr64_pow (by norm_num)) (le_refl _) (zle (by norm_num)) (abs_nonneg _) (by
            rw [abs_div, abs_one, div_le_iff₀ (abs_pos.mpr hq0)]
            calc (1 : ℚ) = 2 ^ (400 : ℤ) * 2 ^ (-400 : ℤ) := by rw [zadd]; norm_num
              _ ≤ 2 ^ (400 : ℤ) * |q| := mul_le_mul_of_nonneg_left h (Fl.zp_pos _).le)
        exact ⟨F, by rw [← e]; simp [Fl.eq, hq0, Fl.div]⟩
  unfold antFactor
  have hnz : ∀ q : ℚ, ¬Unusable (Fl.cast Fl.r32 (.fin q)) → q ≠ 0 := by
    rintro q h rfl
    exact h (.inl (by simp [Fl.cast, Fl.r32_zero]))
  cases x with
  | nan => exact absurd (.inr rfl) hx
  | inf s =>
    cases y with
    | nan => exact absurd (.inr rfl) hy
    | inf t => exact key _ (by simp [Fl.mul]) (by simp [Fl.mul])
    | fin q => exact key _ (by simp [Fl.mul, hnz q hy]) (by simp [Fl.mul, hnz q hy])
  | fin p =>
    cases y with
    | nan => exact absurd (.inr rfl) hy
    | inf t => exact key _ (by simp [Fl.mul, hnz p hx]) (by simp [Fl.mul, hnz p hx])
    | fin q =>
      refine key _ (r64_ne_nan _) fun m hm => .inr (r64_fin_ge (x := p * q) (by norm_num) hm ?_)
      rw [abs_mul, show (-400 : ℤ) = -200 + -200 by norm_num, ← zadd]
      exact mul_le_mul (usable_ge hx) (usable_ge hy) (Fl.zp_pos _).le (abs_nonneg _)

/-! ## The channel -/

theorem measFold_blank {v : Nat → Cx} {n : Nat} (h : ∀ r, r < n → Blank (v r)) :
    (measFold Fl.r64 v n).2 = .fin 0 ∧ ∀ r, r < n → v r = ⟨.fin 0, .fin 0⟩ → 0 < (measFold Fl.r64 v n).1 := by
  induction n with
  | zero => exact ⟨rfl, fun r hr => by omega⟩
  | succ n ih =>
    obtain ⟨h1, h2⟩ := ih fun r hr => h r (by omega)
    rcases h n (by omega) with hv | hv
    · have e : measFold Fl.r64 v (n + 1) = measFold Fl.r64 v n := by
        simp only [measFold, includeVis, hv]
        rfl
      rw [e]
      refine ⟨h1, fun r hr hz => ?_⟩
      rcases Nat.lt_succ_iff_lt_or_eq.mp hr with hr | rfl
      · exact h2 r hr hz
      · rw [hz] at hv
        simp [Fl.isFinite] at hv
    · have e : measFold Fl.r64 v (n + 1) = ((measFold Fl.r64 v n).1 + 1, .fin 0) := by
        simp only [measFold, includeVis, hv, h1]
        simp [Fl.isFinite, Fl.mul, Fl.add, Fl.r64_zero]
      rw [e]
      exact ⟨rfl, fun _ _ _ => Nat.succ_pos _⟩

theorem rms_blank {sq : Fl → Fl} (hsq : SqrtMono sq) {v : Nat → Cx} {n r : Nat} (h : ∀ r, r < n → Blank (v r)) (hr : r < n)
    (hz : v r = ⟨.fin 0, .fin 0⟩) : rms Fl.r64 sq (measFold Fl.r64 v n) = .fin 0 := by
  obtain ⟨h1, h2⟩ := measFold_blank h
  have h3 := h2 r hr hz
  unfold rms
  rw [h1]
  have : Fl.div Fl.r64 (.fin 0) (.fin (((measFold Fl.r64 v n).1 * 2 : ℕ) : ℚ)) = .fin 0 := by
    simp [Fl.div, h3.ne', Fl.r64_zero]
  rw [this, hsq.zero]

/-- The state while a channel without signal is fitted: its factor stays zero, and its zeros stay zero in the rows whose antennas
have usable factors. -/
def Zeros (nR nPol nCh nAnt : Nat) (A : Nat → Nat × Nat) (D : Nat → Nat → Cx) (len i : Nat) (st : Block Cx × Buf Fl) : Prop :=
  ∃ D', Holds nR (nPol * nCh) A D' st.1 ∧ st.2.len = len ∧
    (∀ p a, p < nPol → a < nAnt → Fl.IsFloat (st.2.get (nPol * nCh + (nAnt * p + a)))) ∧
    ∀ r, r < nR → D r i = ⟨.fin 0, .fin 0⟩ → st.2.get i = .fin 0 ∧
      (¬Unusable (st.2.get (nPol * nCh + (nAnt * (i % nPol) + (A r).1))) →
        ¬Unusable (st.2.get (nPol * nCh + (nAnt * (i % nPol) + (A r).2))) → D' r i = ⟨.fin 0, .fin 0⟩)

theorem scaleN_zeros (q : ℚ) (k : Nat) : scaleN Fl.r64 (.fin q) k ⟨.fin 0, .fin 0⟩ = ⟨.fin 0, .fin 0⟩ := by
  induction k with
  | zero => rfl
  | succ k ih =>
    show (scaleN Fl.r64 (.fin q) k ⟨.fin 0, .fin 0⟩).scale Fl.r64 (.fin q) = _
    rw [ih]
    simp [Cx.scale, Fl.mul, Fl.r64_zero]

theorem zeros_kept {len i : Nat} (hi : i < nPol * nCh) (hb : nPol * nCh + nAnt * nPol ≤ len) :
    Kept Fl.r32 Fl.r64 nPol nCh nAnt (Zeros nR nPol nCh nAnt A D len i) where
  channel := by
    rintro ⟨data, metaB⟩ j q st' ⟨D', h1, h2, h4, h3⟩ hj hq e
    simp only at h1 h2 h3 h4
    obtain ⟨D2, data', e', k1, k2, k3⟩ := changeChannel_spec (RF := Fl.r32) (RD := Fl.r64) h1 metaB hj (by omega) (.fin q)
    rw [e'] at e
    obtain rfl := Option.some.inj e
    refine ⟨D2, k1, h2, fun p a hp ha => ?_, fun r hr hz => ?_⟩
    · simp only
      rw [if_neg (by omega)]
      exact h4 p a hp ha
    obtain ⟨g1, g2⟩ := h3 r hr hz
    have hne : ∀ x, nPol * nCh + x ≠ j := fun x => by omega
    simp only [hne, if_false]
    refine ⟨?_, fun u1 u2 => ?_⟩
    · split
      · rename_i hij
        rw [← hij, g1]
        simp [Fl.div, hq.ne', Fl.r64_zero, Fl.cast, Fl.r32_zero]
      · exact g1
    · by_cases hij : i = j
      · subst hij
        rw [k2 r hr, g2 u1 u2]
        simp [Cx.scale, Fl.mul, Fl.r64_zero]
      · rw [k3 r i hij, g2 u1 u2]
  antenna := by
    rintro ⟨data, metaB⟩ a p q st' ⟨D', h1, h2, h4, h3⟩ ha hp hq e
    simp only at h1 h2 h3 h4
    obtain ⟨D2, data', e', k1, k2, k3⟩ := changeAntenna_spec (RF := Fl.r32) (RD := Fl.r64) h1 metaB ha hp (by omega) (.fin q)
    rw [e'] at e
    obtain rfl := Option.some.inj e
    refine ⟨D2, k1, h2, fun p' a' hp' ha' => ?_, fun r hr hz => ?_⟩
    · simp only
      split
      · exact Fl.isFloat_cast _
      · exact h4 p' a' hp' ha'
    obtain ⟨g1, g2⟩ := h3 r hr hz
    have hu : ∀ j, ¬Unusable (if j = nPol * nCh + (nAnt * p + a) then
        Fl.cast Fl.r32 (Fl.div Fl.r64 (metaB.get (nPol * nCh + (nAnt * p + a))) (.fin q)) else metaB.get j) →
        ¬Unusable (metaB.get j) := by
      intro j hj hu
      split at hj
      · rename_i hja
        rw [hja] at hu
        exact hj (hu.div hq)
      · exact hj hu
    simp only
    rw [if_neg (by omega)]
    refine ⟨g1, fun u1 u2 => ?_⟩
    have hz' := g2 (hu _ u1) (hu _ u2)
    have hp0 : 0 < nPol := by omega
    have hc := Nat.div_lt_of_lt_mul hi
    have ei := Nat.div_add_mod' i nPol
    by_cases hpp : i % nPol = p
    · have := k2 r (i / nPol) hr hc
      rw [← hpp, ei, hz', scaleN_zeros] at this
      exact this
    · have := k3 r (i / nPol) (i % nPol) (Nat.mod_lt _ hp0) hpp
      rw [ei] at this
      rw [this, hz']

theorem Zeros.normalize {sq : Fl → Fl} (hsq : SqrtMono sq) (h : Holds nR (nPol * nCh) A D data) (hA : AntennasBelow nR nAnt A)
    (hR : 0 < nR) (metaB : Buf Fl) (hb : nPol * nCh + nAnt * nPol ≤ metaB.len) {i : Nat} (hi : i < nPol * nCh)
    (hz : ∀ r, r < nR → Blank (D r i)) :
    ∃ st, normalize Fl.r32 Fl.r64 sq nPol nCh nAnt (data, metaB) = some st ∧ Zeros nR nPol nCh nAnt A D metaB.len i st := by
  obtain ⟨st, D', w, e, k1, k2, k3, k4, k5⟩ := normalize_form (RF := Fl.r32) (RD := Fl.r64) (sq := sq) h hA hR metaB hb
  refine ⟨st, e, D', k1, k2, fun p a hp ha => ?_, fun r hr hv => ?_⟩
  · rw [k5 p a hp ha]
    exact Fl.isFloat_cast _
  have hs := rms_blank hsq hz hr hv
  have hp0 : 0 < nPol := Nat.pos_of_ne_zero (by rintro rfl; simp at hi)
  have hp := Nat.mod_lt i hp0
  refine ⟨?_, fun u1 u2 => ?_⟩
  · rw [k4 i hi, hs]
    simp [Fl.cast, Fl.r32_zero]
  · rw [k5 _ _ hp (hA r hr).1] at u1
    rw [k5 _ _ hp (hA r hr).2] at u2
    obtain ⟨F, hF⟩ := antFactor_fin u1 u2
    have := k3 r (i / nPol) (i % nPol) hr (Nat.div_lt_of_lt_mul hi) hp
    rw [Nat.div_add_mod' i nPol, hs, hF, hv] at this
    rw [this]
    simp [divRms, Fl.eq, Cx.scale, Fl.mul, Fl.r64_zero]

/-! ## The properties -/

/-- **C118** (a channel): in a block of moderate data, a channel (of one polarisation) in which every sample is zero or flagged comes
back as exact zeros, for every row whose antennas have finite non-zero factors in the file. -/
theorem af_zero_channel {sq : Fl → Fl} (hsq : SqrtMono sq) {e : Encoder} {b l : Nat → ℚ} {L : ℚ} (hT : Table e b l L)
    (hLr : Fl.Repr Fl.binary32 L) (dithered : Bool) (dith : Nat → Nat) (hc0 : 0 < nCh) (hR : 0 < nR)
    (hA : AntennasBelow nR nAnt A) (hn : nAnt ≤ 2 ^ 14) (hrows : nR ≤ 2 ^ 24) (hsize : nR * nCh ≤ 2 ^ 24)
    (h : Holds nR (nPol * nCh) A D data) (hM : Moderate nR (nPol * nCh) A D) (metaB : Buf Fl)
    (hb : metaDataCount nR nPol nCh nAnt ≤ metaB.len) (sym : Buf Nat)
    (hs : TimeBlock.symbolCount nR nPol nCh ≤ sym.len) {i : Nat} (hi : i < nPol * nCh)
    (hz : ∀ r, r < nR → (D r i).re.isFinite = false ∨ D r i = ⟨.fin 0, .fin 0⟩) :
    ∃ (N : Nat) (metaB' : Buf Fl) (sym' : Buf Nat),
      (∀ fuel, N ≤ fuel → encode Fl.r32 Fl.r64 sq (encFn Fl.r32 e dithered) e.maxQuantity nPol nCh nAnt dith fuel data metaB sym =
        some (some (metaB', sym'))) ∧
      ∀ (dest : Block Cx) (r : Nat) (g1 g2 : ℚ), r < nR → r < dest.len → D r i = ⟨.fin 0, .fin 0⟩ →
        metaB'.get (nPol * nCh + (nAnt * (i % nPol) + (A r).1)) = .fin g1 → g1 ≠ 0 →
        metaB'.get (nPol * nCh + (nAnt * (i % nPol) + (A r).2)) = .fin g2 → g2 ≠ 0 →
        ∃ dest', decode Fl.r32 Fl.r64 e.decode nPol nCh nAnt metaB' dest sym' r (A r).1 (A r).2 = some dest' ∧
          (dest'.get r).vis.get i = ⟨.fin 0, .fin 0⟩ := by
  have hb : nPol * nCh + nAnt * nPol ≤ metaB.len := by
    rw [metaDataCount, Nat.mul_add, Nat.mul_comm nPol nAnt] at hb
    exact hb
  have hs : nR * (nPol * nCh) * 2 ≤ sym.len := by
    have e : TimeBlock.symbolCount nR nPol nCh = nR * (nPol * nCh) * 2 := by unfold TimeBlock.symbolCount; ring
    rwa [e] at hs
  have hL2 : L < 2 ^ (128 : ℤ) := lt_of_le_of_lt hT.le (by norm_num [fltMax])
  obtain ⟨st0, e0, l0, D0, k0, hrange⟩ := normalize_range hsq hA hR hn hrows hsize h hM metaB hb
  obtain ⟨st0', e0', hk0⟩ := Zeros.normalize hsq h hA hR metaB hb hi hz
  obtain rfl : st0 = st0' := Option.some.inj (e0.symm.trans e0')
  obtain ⟨N, _, ⟨data1, meta1⟩, ef, _, hl, ⟨D1, hd, _, hfl, hk⟩, _⟩ := fitToMaximum_spec (RF := Fl.r32)
    (inRange_r64 (Fl.repr32_ge hLr hT.pos) hL2) hA hc0 (zeros_kept (nR := nR) (A := A) (D := D) (nAnt := nAnt) hi hb) k0 st0.2
    (by omega) (fun r i hr hi hcr m hm => hrange r i m hr hi hcr hm) hk0
  simp only at hl hd hk hfl
  obtain ⟨sym', e2, g1, g2, _, g4⟩ := quantise_total (RF := Fl.r32) (hT.total Fl.r32 dithered) (dith := dith) hd sym hs
  refine ⟨N, meta1, sym', ?_, ?_⟩
  · intro fuel hf
    unfold encode
    rw [e0, Option.bind_some, hT.maxQuantity, ef fuel hf, Option.bind_some]
    simp only
    rw [e2]
    rfl
  intro dest r x1 x2 hr hde hv m1 n1 m2 n2
  have hrow : (r * (nPol * nCh) + nPol * nCh) * 2 ≤ nR * (nPol * nCh) * 2 := by
    have : (r + 1) * (nPol * nCh) ≤ nR * (nPol * nCh) := Nat.mul_le_mul_right _ hr
    rw [Nat.add_mul, Nat.one_mul] at this
    omega
  obtain ⟨dest', ed, _, _, _, _, _, d6⟩ := decode_spec (RF := Fl.r32) (RD := Fl.r64)
    (nPol := nPol) (nCh := nCh) hT meta1 sym' dest r (A r).1 (A r).2 hde (hA r hr).1 (hA r hr).2
    (by omega) (by omega) (fun j hj => g2 j (by omega))
  refine ⟨dest', ed, ?_⟩
  obtain ⟨hg, hzero⟩ := hk r hr hv
  have hp : i % nPol < nPol := Nat.mod_lt _ (Nat.pos_of_ne_zero (by rintro rfl; simp at hi))
  have hD1 := hzero (by rw [m1]; simp [Unusable, n1]) (by rw [m2]; simp [Unusable, n2])
  obtain ⟨s1, s2⟩ := g4 r i hr hi
  rw [hD1] at s1 s2
  have key : ∀ d s, encFn Fl.r32 e dithered (Fl.cast Fl.r32 (.fin 0)) d = some s →
      Fl.cast Fl.r32 (Fl.mul Fl.r64 (e.level s) (Fl.mul Fl.r64 (.fin 0) (Fl.mul Fl.r64 (.fin x1) (.fin x2)))) = .fin 0 := by
    intro d s hs
    rw [show Fl.cast Fl.r32 (.fin 0) = .fin 0 by simp only [Fl.cast, Fl.r32_zero]] at hs
    obtain ⟨q, eq⟩ := hT.finite Fl.r32 dithered (by norm_num [fltMax]) d hs
    obtain ⟨g, eg, -⟩ := r64_between_abs (x := x1 * x2) (a := 0) (b := (2 : ℚ) ^ (256 : ℤ)) (Fl.Repr.zero _)
      (repr64_pow (by norm_num)) (le_refl _) (zle (by norm_num)) (abs_nonneg _) (by
        rw [abs_mul, show (256 : ℤ) = 128 + 128 by norm_num, ← zadd]
        exact mul_le_mul (hfl _ _ hp (hA r hr).1 x1 m1).2.le (hfl _ _ hp (hA r hr).2 x2 m2).2.le (abs_nonneg _) (Fl.zp_pos _).le)
    rw [eq]
    simp [Fl.mul, eg, Fl.r64_zero, Fl.cast, Fl.r32_zero]
  rw [d6 _ hi, hg, m1, m2, key _ _ s1, key _ _ s2]

/-- **C118** (a block): a block in which every sample is zero or flagged is encoded in one iteration of the fit, and its zeros come
back as exact zeros, also those of the autocorrelations. -/
theorem af_zero_block {sq : Fl → Fl} (hsq : SqrtMono sq) {e : Encoder} {b l : Nat → ℚ} {L : ℚ} (hT : Table e b l L)
    (dithered : Bool) (dith : Nat → Nat) (hc0 : 0 < nCh) (hR : 0 < nR) (hrows : nR ≤ 2 ^ 24)
    (h : Holds nR (nPol * nCh) A D data) (hA : AntennasBelow nR nAnt A)
    (hz : ∀ r i, r < nR → i < nPol * nCh → (D r i).re.isFinite = false ∨ D r i = ⟨.fin 0, .fin 0⟩)
    (metaB : Buf Fl) (hb : metaDataCount nR nPol nCh nAnt ≤ metaB.len) (sym : Buf Nat)
    (hs : TimeBlock.symbolCount nR nPol nCh ≤ sym.len) {fuel : Nat} (hfuel : 0 < fuel) :
    ∃ metaB' sym', encode Fl.r32 Fl.r64 sq (encFn Fl.r32 e dithered) e.maxQuantity nPol nCh nAnt dith fuel data metaB sym =
        some (some (metaB', sym')) ∧
      ∀ (dest : Block Cx) (r : Nat), r < nR → r < dest.len →
        ∃ dest', decode Fl.r32 Fl.r64 e.decode nPol nCh nAnt metaB' dest sym' r (A r).1 (A r).2 = some dest' ∧
          ∀ i, i < nPol * nCh → D r i = ⟨.fin 0, .fin 0⟩ → (dest'.get r).vis.get i = ⟨.fin 0, .fin 0⟩ := by
  have hM : Moderate nR (nPol * nCh) A D := by
    intro r i hr hi
    rcases hz r i hr hi with hv | hv
    · refine ⟨fun a b hab => ?_, fun _ a hab => ?_⟩ <;>
      · rw [hab] at hv
        simp [Fl.isFinite] at hv
    · refine ⟨fun a b hab => ?_, fun _ a hab => ?_⟩
      · rw [hv] at hab
        simp only [Cx.mk.injEq, Fl.fin.injEq] at hab
        exact ⟨.inl hab.1.symm, .inl hab.2.symm⟩
      · rw [hv] at hab
        simp at hab
  obtain ⟨metaB', sym', ee, hd⟩ := af_autocorrelations_lost hsq hT dithered dith hc0 hR hrows h hA hM
    (fun r i hr hi _ => hz r i hr hi) metaB hb sym hs hfuel
  refine ⟨metaB', sym', ee, fun dest r hr hdr => ?_⟩
  obtain ⟨dest', ed, hv⟩ := hd dest r hr hdr
  refine ⟨dest', ed, fun i hi h0 => ?_⟩
  obtain ⟨k1, k2⟩ := hv i 0 0 hi h0
  have e1 := k1.2 rfl
  have e2 := k2.2 rfl
  revert e1 e2
  generalize (dest'.get r).vis.get i = v
  rintro e1 e2
  obtain ⟨re, im⟩ := v
  simp only at e1 e2
  rw [e1, e2]

/-- Two rows with two channels, the first of which has no signal. -/
def zeroVis (r i : Nat) : Cx :=
  if i = 0 then (if r = 0 then ⟨.fin 0, .fin 0⟩ else ⟨.nan, .nan⟩) else if r = 0 then ⟨.fin 3, .fin (-4)⟩ else ⟨.fin 1, .fin 2⟩

example : Holds 2 (1 * 2) (fun _ => (0, 1)) zeroVis ⟨2, fun r => ⟨0, 1, ⟨2, zeroVis r⟩⟩⟩ ∧
    AntennasBelow 2 2 (fun _ => (0, 1)) ∧ Moderate 2 (1 * 2) (fun _ => (0, 1)) zeroVis ∧
    (∀ r, r < 2 → (zeroVis r 0).re.isFinite = false ∨ zeroVis r 0 = ⟨.fin 0, .fin 0⟩) ∧
    (match encode Fl.r32 Fl.r64 coarseSqrt (fun _ _ => some 0) (.fin 1) 1 2 2 (fun _ => 0) 1
        ⟨2, fun r => ⟨0, 1, ⟨2, zeroVis r⟩⟩⟩ ⟨4, fun _ => .nan⟩ ⟨8, fun _ => 0⟩ with
      | some (some (m, _)) => Fl.eq (m.get 0) (.fin 0) && isNormal (m.get 2) && isNormal (m.get 3)
      | _ => false) = true := by
  refine ⟨⟨rfl, fun _ _ => rfl, fun _ _ => rfl, fun _ _ _ _ => rfl⟩, fun _ _ => ⟨by norm_num, by norm_num⟩, ?_, ?_, ?_⟩
  · intro r i hr hi
    have hr' : r = 0 ∨ r = 1 := by omega
    have hi' : i = 0 ∨ i = 1 := by omega
    rcases hr' with rfl | rfl <;> rcases hi' with rfl | rfl <;>
      refine ⟨?_, ?_⟩ <;> simp [zeroVis, Cross] <;> norm_num
  · intro r _
    unfold zeroVis
    rw [if_pos rfl]
    split
    · exact .inr rfl
    · exact .inl rfl
  · decide +kernel

/-- A block without signal: a zero autocorrelation, a zero and a flagged cross-correlation. -/
example : ∃ (A : Nat → Nat × Nat) (D : Nat → Nat → Cx), Holds 3 (1 * 1) A D ⟨3, fun r => ⟨0, (A r).2, ⟨1, D r⟩⟩⟩ ∧
    AntennasBelow 3 2 A ∧ (A 0).1 = (A 0).2 ∧ D 0 0 = ⟨.fin 0, .fin 0⟩ ∧ D 1 0 = ⟨.fin 0, .fin 0⟩ ∧ D 2 0 = ⟨.nan, .nan⟩ ∧
    ∀ r i, r < 3 → i < 1 * 1 → (D r i).re.isFinite = false ∨ D r i = ⟨.fin 0, .fin 0⟩ := by
  refine ⟨fun r => (0, if r = 0 then 0 else 1), fun r _ => if r = 2 then ⟨.nan, .nan⟩ else ⟨.fin 0, .fin 0⟩,
    ⟨rfl, fun _ _ => rfl, fun _ _ => rfl, fun _ _ _ _ => rfl⟩, ?_, rfl, rfl, rfl, rfl, ?_⟩
  · intro r _
    refine ⟨by norm_num, ?_⟩
    simp only
    split <;> norm_num
  · intro r i _ _
    simp only
    split
    · exact .inl rfl
    · exact .inr rfl

end Dysco.AF
