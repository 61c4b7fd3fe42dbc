import Verif.AFFloatLemmas
import Verif.AFProps
import Verif.RowFloat

/-!
# C80: antenna-frequency normalised data in float and double arithmetic
-/

namespace Dysco.AF
open TimeBlock Stochastic

variable {nR nPol nCh nAnt : Nat} {A : Nat → Nat × Nat} {D : Nat → Nat → Cx} {data : Block Cx}

/-! ## Sample and metadata stay together -/

/-- Both components of a sample. -/
def Cell (k : Nat) (m m1 m2 : Fl) (v v' : Cx) : Prop :=
  Comp k m m1 m2 v.re v'.re ∧ Comp k m m1 m2 v.im v'.im

/-- The cross-correlations of the block `st.1` belong to the original samples `D`, with the factors in
`st.2`, up to `K i` adjustments, for the channels `S`. -/
def Track (nR nPol nCh nAnt : Nat) (A : Nat → Nat × Nat) (D : Nat → Nat → Cx) (S : Nat → Prop)
    (len : Nat) (K : Nat → Nat) (st : Block Cx × Buf Fl) : Prop :=
  ∃ D', Holds nR (nPol * nCh) A D' st.1 ∧ st.2.len = len ∧
    (∀ j, j < nPol * nCh + nAnt * nPol → Fl.IsFloat (st.2.get j)) ∧
    ∀ r c p, r < nR → c < nCh → p < nPol → Cross A r → S (c * nPol + p) →
      Cell (K (c * nPol + p)) (st.2.get (c * nPol + p))
        (st.2.get (nPol * nCh + (nAnt * p + (A r).1))) (st.2.get (nPol * nCh + (nAnt * p + (A r).2)))
        (D r (c * nPol + p)) (D' r (c * nPol + p))

variable {S : Nat → Prop} {len : Nat} {K : Nat → Nat}

theorem Track.mono {K' : Nat → Nat} {st : Block Cx × Buf Fl}
    (h : Track nR nPol nCh nAnt A D S len K st) (hK : ∀ i, K i ≤ K' i) :
    Track nR nPol nCh nAnt A D S len K' st := by
  obtain ⟨D', h1, h2, h3, h4⟩ := h
  refine ⟨D', h1, h2, h3, ?_⟩
  intro r c p hr hc hp hcr hs
  obtain ⟨q1, q2⟩ := h4 r c p hr hc hp hcr hs
  exact ⟨q1.mono (hK _), q2.mono (hK _)⟩

theorem antIndex_lt {a p : Nat} (ha : a < nAnt) (hp : p < nPol) : nAnt * p + a < nAnt * nPol := by
  have : p * nAnt + a < nPol * nAnt := flat_lt hp ha
  rw [Nat.mul_comm nAnt p, Nat.mul_comm nAnt nPol]
  exact this

/-- The finite samples of the block are floats. -/
def FloatBlock (nR n : Nat) (D : Nat → Nat → Cx) : Prop :=
  ∀ r i, r < nR → i < n → Fl.IsFloat (D r i).re ∧ Fl.IsFloat (D r i).im

/-- Changing a channel. -/
theorem Track.channel {data : Block Cx} {metaB : Buf Fl} (hF : FloatBlock nR (nPol * nCh) D)
    (hA : AntennasBelow nR nAnt A)
    (hb : nPol * nCh + nAnt * nPol ≤ len)
    (h : Track nR nPol nCh nAnt A D S len K (data, metaB)) {i : Nat} (hi : i < nPol * nCh) (hK : K i ≤ 2000010)
    {f : Fl}
    (hback : S i → Normal (Fl.cast Fl.r32 (Fl.div Fl.r64 (metaB.get i) f)) → Normal (metaB.get i)) :
    ∃ st', changeChannel Fl.r32 Fl.r64 (data, metaB) i f = some st' ∧
      Track nR nPol nCh nAnt A D S len (fun j => if j = i then K j + 1 else K j) st' ∧
      ∀ j, j ≠ i → st'.2.get j = metaB.get j := by
  obtain ⟨D', h1, h2, h3, h4⟩ := h
  simp only at h1 h2 h3 h4
  obtain ⟨D2, data', e, k1, k2, k3⟩ := changeChannel_spec (RF := Fl.r32) (RD := Fl.r64) h1 metaB hi
    (by omega) f
  refine ⟨_, e, ⟨D2, k1, h2, ?_, ?_⟩, ?_⟩
  · intro j hj
    simp only
    split
    · exact Fl.isFloat_cast _
    · exact h3 j hj
  · intro r c p hr hc hp hcr hs
    have hc1 := chan_lt (nPol := nPol) hc hp
    have i1 := antIndex_lt (hA r hr).1 hp
    have i2 := antIndex_lt (hA r hr).2 hp
    have ha1 : ¬ nPol * nCh + (nAnt * p + (A r).1) = i := by omega
    have ha2 : ¬ nPol * nCh + (nAnt * p + (A r).2) = i := by omega
    obtain ⟨q1, q2⟩ := h4 r c p hr hc hp hcr hs
    simp only [if_neg ha1, if_neg ha2]
    by_cases hji : c * nPol + p = i
    · rw [if_pos hji, if_pos hji, hji, k2 r hr]
      rw [hji] at q1 q2 hs
      have g1 := h3 _ (by omega : nPol * nCh + (nAnt * p + (A r).1) < _)
      have g2 := h3 _ (by omega : nPol * nCh + (nAnt * p + (A r).2) < _)
      obtain ⟨f1, f2⟩ := hF r i hr hi
      exact ⟨q1.change hK g1 g2 f1 (hback hs), q2.change hK g1 g2 f2 (hback hs)⟩
    · rw [if_neg hji, if_neg hji, k3 r _ hji]
      exact ⟨q1, q2⟩
  · intro j hj
    simp only [if_neg hj]

/-- Changing an antenna, by a factor of at least 1. -/
theorem Track.antenna {data : Block Cx} {metaB : Buf Fl} (hF : FloatBlock nR (nPol * nCh) D)
    (hA : AntennasBelow nR nAnt A)
    (hb : nPol * nCh + nAnt * nPol ≤ len) 
    (h : Track nR nPol nCh nAnt A D S len K (data, metaB)) {a p : Nat} (hK : ∀ i, i % nPol = p → K i ≤ 2000010)
    (ha : a < nAnt) (hp : p < nPol)
    {f : Fl} (hf : Fl.lt f (.fin 1) = false) :
    ∃ st', changeAntenna Fl.r32 Fl.r64 nPol nCh nAnt (data, metaB) a p f = some st' ∧
      Track nR nPol nCh nAnt A D S len (fun j => if j % nPol = p then K j + 1 else K j) st' := by
  obtain ⟨D', h1, h2, h3, h4⟩ := h
  simp only at h1 h2 h3 h4
  obtain ⟨D2, data', e, k1, k2, k3⟩ := changeAntenna_spec (RF := Fl.r32) (RD := Fl.r64) h1 metaB ha hp
    (by omega) f
  refine ⟨_, e, D2, k1, h2, ?_, ?_⟩
  · intro j hj
    simp only
    split
    · exact Fl.isFloat_cast _
    · exact h3 j hj
  · intro r c p' hr hc hp' hcr hs
    have hc1 := chan_lt (nPol := nPol) hc hp'
    have i0 := antIndex_lt (nPol := nPol) ha hp
    have i1 := antIndex_lt (hA r hr).1 hp'
    have i2 := antIndex_lt (hA r hr).2 hp'
    have hch : ¬ c * nPol + p' = nPol * nCh + (nAnt * p + a) := by omega
    obtain ⟨q1, q2⟩ := h4 r c p' hr hc hp' hcr hs
    simp only [if_neg hch, flat_mod hp']
    have inj : ∀ b, b < nAnt → nPol * nCh + (nAnt * p' + b) = nPol * nCh + (nAnt * p + a) →
        p' = p ∧ b = a := by
      intro b hb' he
      have : p' * nAnt + b = p * nAnt + a := by
        rw [Nat.mul_comm p', Nat.mul_comm p]; omega
      exact flat_inj hb' ha this
    by_cases hpp : p' = p
    · subst hpp
      rw [if_pos rfl, k2 r c hr hc]
      have g0 := h3 _ (by omega : c * nPol + p' < _)
      have g1 := h3 _ (by omega : nPol * nCh + (nAnt * p' + (A r).1) < _)
      have g2 := h3 _ (by omega : nPol * nCh + (nAnt * p' + (A r).2) < _)
      obtain ⟨f1, f2⟩ := hF r _ hr hc1
      by_cases e1 : (A r).1 = a
      · have e2 : ¬ (A r).2 = a := fun h => hcr (e1.trans h.symm)
        have n2 : ¬ nPol * nCh + (nAnt * p' + (A r).2) = nPol * nCh + (nAnt * p' + a) := by omega
        have ec : cnt (A r) a = 1 := by simp [cnt, e1, e2]
        rw [e1] at q1 q2 g1
        rw [ec, scaleN_one, if_neg n2, e1, if_pos rfl]
        exact ⟨(q1.swap.change (hK _ (flat_mod hp')) g0 g2 f1 (normal_back g1 hf)).swap,
          (q2.swap.change (hK _ (flat_mod hp')) g0 g2 f2 (normal_back g1 hf)).swap⟩
      · have n1 : ¬ nPol * nCh + (nAnt * p' + (A r).1) = nPol * nCh + (nAnt * p' + a) := by omega
        by_cases e2 : (A r).2 = a
        · have ec : cnt (A r) a = 1 := by simp [cnt, e1, e2]
          rw [e2] at q1 q2 g2
          rw [ec, scaleN_one, if_neg n1, e2, if_pos rfl]
          exact ⟨(q1.swap2.swap.change (hK _ (flat_mod hp')) g0 g1 f1 (normal_back g2 hf)).swap.swap2,
            (q2.swap2.swap.change (hK _ (flat_mod hp')) g0 g1 f2 (normal_back g2 hf)).swap.swap2⟩
        · have n2 : ¬ nPol * nCh + (nAnt * p' + (A r).2) = nPol * nCh + (nAnt * p' + a) := by omega
          have ec : cnt (A r) a = 0 := by simp [cnt, e1, e2]
          rw [ec, scaleN_zero, if_neg n1, if_neg n2]
          exact ⟨q1.mono (by omega), q2.mono (by omega)⟩
    · rw [if_neg hpp, k3 r c p' hp' hpp, if_neg (fun he => hpp (inj _ (hA r hr).1 he).1),
        if_neg (fun he => hpp (inj _ (hA r hr).2 he).1)]
      exact ⟨q1, q2⟩

/-- One iteration of the loop. -/
theorem Track.step {st : Block Cx × Buf Fl} {maxLevel : Fl} (hF : FloatBlock nR (nPol * nCh) D)
    (hA : AntennasBelow nR nAnt A) (hc0 : 0 < nCh)
    (hb : nPol * nCh + nAnt * nPol ≤ len)
    (h : Track nR nPol nCh nAnt A D S len K st) {p : Nat} (hK : ∀ i, i % nPol = p → K i ≤ 2000010)
    (hp : p < nPol) :
    ∃ r, fitStep Fl.r32 Fl.r64 nPol nCh nAnt p maxLevel st = some r ∧
      Track nR nPol nCh nAnt A D S len (fun j => if j % nPol = p then K j + 1 else K j) r.1 := by
  obtain ⟨data, metaB⟩ := st
  obtain ⟨D', h1, h2, h3, h4⟩ := id h
  simp only at h1 h2 h3
  rcases fitStep_spec (RF := Fl.r32) (RD := Fl.r64) (maxLevel := maxLevel) hc0 h1 hA hp metaB with
    e | ⟨a, M, ha, _, hf, e⟩ | ⟨c, f, hcc, hf, _, e⟩
  · refine ⟨_, e, h.mono ?_⟩
    intro i
    split <;> omega
  · obtain ⟨st', e', ht⟩ := h.antenna hF hA hb hK ha hp hf
    rw [e, e']
    exact ⟨_, rfl, ht⟩
  · have hi := chan_lt (nPol := nPol) hcc hp
    obtain ⟨st', e', ht, _⟩ := h.channel hF hA hb hi (hK _ (flat_mod hp)) (f := f)
      (fun _ => normal_back (h3 _ (by omega)) hf)
    rw [e, e']
    refine ⟨_, rfl, ht.mono ?_⟩
    intro j
    by_cases hj : j = c * nPol + p
    · rw [if_pos hj, if_pos (by rw [hj, flat_mod hp])]
    · rw [if_neg hj]
      split <;> omega

/-- A loop that has ended after at most `fuel` iterations. -/
theorem Track.loop {maxLevel : Fl} (hF : FloatBlock nR (nPol * nCh) D)
    (hA : AntennasBelow nR nAnt A) (hc0 : 0 < nCh)
    (hb : nPol * nCh + nAnt * nPol ≤ len) {p : Nat} (hp : p < nPol) (fuel : Nat) :
    ∀ {K : Nat → Nat} {st st' : Block Cx × Buf Fl}, (∀ i, i % nPol = p → K i + fuel ≤ 2000010) →
    Track nR nPol nCh nAnt A D S len K st →
    doWhile (fitStep Fl.r32 Fl.r64 nPol nCh nAnt p maxLevel) fuel st = some (some st') →
      Track nR nPol nCh nAnt A D S len (fun j => if j % nPol = p then K j + fuel else K j) st' := by
  induction fuel with
  | zero =>
    intro K st st' _ _ e
    simp [doWhile] at e
  | succ fuel ih =>
    intro K st st' hK h e
    obtain ⟨r, er, hr⟩ := h.step (maxLevel := maxLevel) hF hA hc0 hb (fun i hi => by have := hK i hi; omega) hp
    unfold doWhile at e
    rw [er, Option.bind_some] at e
    split at e
    · refine (ih (K := fun j => if j % nPol = p then K j + 1 else K j) ?_ hr e).mono ?_
      · intro i hi
        have := hK i hi
        rw [if_pos hi]
        omega
      · intro i
        split <;> omega
    · obtain rfl := Option.some.inj (Option.some.inj e)
      refine hr.mono ?_
      intro i
      split <;> omega

/-- All loops. -/
theorem Track.pols {maxLevel : Fl} (hF : FloatBlock nR (nPol * nCh) D)
    (hA : AntennasBelow nR nAnt A) (hc0 : 0 < nCh)
    (hb : nPol * nCh + nAnt * nPol ≤ len) (fuel : Nat) {st : Block Cx × Buf Fl}
    (hK : 4 + fuel ≤ 2000010) (h : Track nR nPol nCh nAnt A D S len (fun _ => 4) st) (p : Nat)
    (hp : p ≤ nPol) :
    ∀ st', fitPols Fl.r32 Fl.r64 nPol nCh nAnt maxLevel fuel p st = some (some st') →
      Track nR nPol nCh nAnt A D S len (fun j => if j % nPol < p then 4 + fuel else 4) st' := by
  induction p with
  | zero =>
    intro st' e
    obtain rfl := Option.some.inj (Option.some.inj e)
    exact h.mono fun i => by simp
  | succ p ih =>
    intro st' e
    unfold fitPols at e
    cases hq : fitPols Fl.r32 Fl.r64 nPol nCh nAnt maxLevel fuel p st with
    | none => rw [hq] at e; simp at e
    | some o =>
      cases o with
      | none => rw [hq] at e; simp at e
      | some st1 =>
        rw [hq, Option.bind_some] at e
        simp only at e
        have h1 := ih (by omega) st1 hq
        refine (Track.loop hF hA hc0 hb (by omega : p < nPol) fuel ?_ h1 e).mono ?_
        · intro i hi
          rw [if_neg (by omega)]
          exact hK
        · intro i
          by_cases hi : i % nPol = p
          · rw [if_pos hi, if_neg (by omega), if_pos (by omega)]
          · rw [if_neg hi]
            split <;> split <;> omega

/-- The first step of the fit, which changes every channel once. -/
theorem Track.channels {maxLevel : Fl} (hF : FloatBlock nR (nPol * nCh) D)
    (hA : AntennasBelow nR nAnt A) (hb : nPol * nCh + nAnt * nPol ≤ len) {st : Block Cx × Buf Fl}
    (h : Track nR nPol nCh nAnt A D S len (fun _ => 3) st)
    (hS : ∀ i, i < nPol * nCh → S i → Normal (st.2.get i)) :
    ∃ st', fitChannels Fl.r32 Fl.r64 nPol nCh maxLevel st = some st' ∧
      Track nR nPol nCh nAnt A D S len (fun _ => 4) st' := by
  obtain ⟨st', e, h1, _⟩ := forRange_inv (nPol * nCh) (fun i st => (crossMax st.1 i).bind fun mx =>
    changeChannel Fl.r32 Fl.r64 st i (firstFactor Fl.r64 maxLevel mx)) st
    (fun k st' => Track nR nPol nCh nAnt A D S len (fun i => if i < k then 4 else 3) st' ∧
      ∀ i, k ≤ i → st'.2.get i = st.2.get i)
    ⟨h.mono fun i => by simp, fun _ _ => rfl⟩ (by
      rintro i ⟨data1, meta1⟩ hi ⟨h1, h2⟩
      obtain ⟨D', q1, _⟩ := id h1
      obtain ⟨M, eM, _⟩ := crossMax_spec q1 hi
      rw [eM, Option.bind_some]
      obtain ⟨st2, e2, t1, t2⟩ := h1.channel hF hA hb hi (by rw [if_neg (by omega)]; norm_num)
        (f := firstFactor Fl.r64 maxLevel (.fin M))
        (fun hs _ => by rw [h2 i (Nat.le_refl _)]; exact hS i hi hs)
      refine ⟨st2, e2, t1.mono ?_, ?_⟩
      · intro j
        by_cases hj : j = i
        · rw [if_pos hj, if_neg (by omega), if_pos (by omega)]
        · rw [if_neg hj]
          split <;> split <;> omega
      · intro j hj
        rw [t2 j (by omega)]
        exact h2 j (by omega))
  refine ⟨st', e, h1.mono ?_⟩
  intro i
  split <;> omega

/-- The whole fit. -/
theorem Track.fit {maxLevel : Fl} (hF : FloatBlock nR (nPol * nCh) D)
    (hA : AntennasBelow nR nAnt A) (hc0 : 0 < nCh) (hb : nPol * nCh + nAnt * nPol ≤ len)
    {st st' : Block Cx × Buf Fl} (h : Track nR nPol nCh nAnt A D S len (fun _ => 3) st)
    (hS : ∀ i, i < nPol * nCh → S i → Normal (st.2.get i)) (fuel : Nat) (hK : 4 + fuel ≤ 2000010)
    (e : fitToMaximum Fl.r32 Fl.r64 nPol nCh nAnt maxLevel fuel st = some (some st')) :
    Track nR nPol nCh nAnt A D S len (fun _ => 4 + fuel) st' := by
  obtain ⟨st1, e1, h1⟩ := h.channels (maxLevel := maxLevel) hF hA hb hS
  unfold fitToMaximum at e
  rw [e1, Option.bind_some] at e
  refine (Track.pols hF hA hc0 hb fuel hK h1 nPol (Nat.le_refl _) st' e).mono ?_
  intro i
  split <;> omega

/-- What the normalisation leaves: every sample divided by the RMS of its channel, then scaled by the factor of its antennas; the
RMS values, as floats, in the metadata. -/
theorem normalize_form {RF RD : ℚ → Fl} {sq : Fl → Fl} (h : Holds nR (nPol * nCh) A D data) (hA : AntennasBelow nR nAnt A)
    (hR : 0 < nR) (metaB : Buf Fl) (hb : nPol * nCh + nAnt * nPol ≤ metaB.len) :
    ∃ (st : Block Cx × Buf Fl) (D' : Nat → Nat → Cx) (w : Nat → Nat → Fl),
      normalize RF RD sq nPol nCh nAnt (data, metaB) = some st ∧ Holds nR (nPol * nCh) A D' st.1 ∧
      st.2.len = metaB.len ∧
      (∀ r c p, r < nR → c < nCh → p < nPol → D' r (c * nPol + p) =
        (divRms RD (rms RD sq (measFold RD (fun r => D r (c * nPol + p)) nR)) (D r (c * nPol + p))).scale RD
          (antFactor RD (w p (A r).1) (w p (A r).2))) ∧
      (∀ i, i < nPol * nCh → st.2.get i = Fl.cast RF (rms RD sq (measFold RD (fun r => D r i) nR))) ∧
      (∀ p a, p < nPol → a < nAnt → st.2.get (nPol * nCh + (nAnt * p + a)) = Fl.cast RF (w p a)) := by
  obtain ⟨meas, e1, l1, hmeas⟩ := channelMeas_spec (RD := RD) h
  obtain ⟨D1, data1, meta1, e2, h1, h2, h3, h4, h5⟩ := normalizeChannels_spec (RF := RF)
    (RD := RD) (sq := sq) h meas l1 metaB (by omega)
  obtain ⟨st, e3, D2, w, k1, k2, k4, k5, k6, k7⟩ := forRange_inv nPol
    (fun p st => AF.normalizeAntennas RF RD sq nPol nCh nAnt p st) (data1, meta1)
    (fun k st => ∃ (D2 : Nat → Nat → Cx) (w : Nat → Nat → Fl), Holds nR (nPol * nCh) A D2 st.1 ∧
      st.2.len = metaB.len ∧
      (∀ r c p, r < nR → c < nCh → p < k → D2 r (c * nPol + p) = (D1 r (c * nPol + p)).scale RD
          (antFactor RD (w p (A r).1) (w p (A r).2))) ∧
      (∀ r c p, p < nPol → k ≤ p → D2 r (c * nPol + p) = D1 r (c * nPol + p)) ∧
      (∀ i, i < nPol * nCh → st.2.get i = meta1.get i) ∧
      (∀ p a, p < k → a < nAnt → st.2.get (nPol * nCh + (nAnt * p + a)) = Fl.cast RF (w p a)))
    ⟨D1, fun _ _ => .nan, h1, h3, fun _ _ _ _ _ hp => by omega,
      fun _ _ _ _ _ => rfl, fun _ _ => rfl, fun _ _ hp => by omega⟩ (by
      rintro p ⟨data2, meta2⟩ hp ⟨D2, w, k1, k2, k4, k5, k6, k7⟩
      simp only at k1 k2 k6 k7
      obtain ⟨ant, ea, la⟩ := antennaRms_some (RD := RD) (sq := sq) k1 hA hp
      obtain ⟨D3, data3, meta3, e3, g1, g2, g3, g4, g5, g6⟩ := normalizeAntennas_spec
        (RF := RF) k1 hA hp la ea meta2 (by omega)
      refine ⟨(data3, meta3), e3, D3, fun p' a => if p' = p then ant.get a else w p' a, g1,
        by simp only; omega, ?_, ?_, ?_, ?_⟩
      · intro r c p' hr hc hp'
        by_cases hpp : p' = p
        · subst hpp
          simp only [if_true]
          rw [g2 r c hr hc, k5 r c p' hp (Nat.le_refl _)]
        · simp only [hpp, if_false]
          rw [g3 r c p' (by omega) hpp, k4 r c p' hr hc (by omega)]
      · intro r c p' hp' hle
        rw [g3 r c p' hp' (by omega), k5 r c p' hp' (by omega)]
      · intro i hi
        rw [g6 i (fun a _ => by omega), k6 i hi]
      · intro p' a hp' ha'
        by_cases hpp : p' = p
        · subst hpp
          simp only [if_true]
          rw [g5 a ha']
        · simp only [hpp, if_false]
          rw [g6, k7 p' a (by omega) ha']
          intro a' ha'' he
          have : p' * nAnt + a = p * nAnt + a' := by
            rw [Nat.mul_comm p', Nat.mul_comm p]; omega
          exact hpp (flat_inj ha' ha'' this).1)
  refine ⟨st, D2, w, ?_, k1, k2, ?_, ?_, k7⟩
  · unfold AF.normalize
    rw [e1, Option.bind_some, e2, Option.bind_some]
    exact e3
  · intro r c p hr hc hp
    have hi := chan_lt (nPol := nPol) hc hp
    rw [k4 r c p hr hc hp, h2 r _ hr hi, hmeas _ hi]
  · intro i hi
    rw [k6 i hi, h4 i hR hi, hmeas i hi]

/-- The normalisation. -/
theorem Track.normalize {sq : Fl → Fl} (hF : FloatBlock nR (nPol * nCh) D)
    (h : Holds nR (nPol * nCh) A D data) (hA : AntennasBelow nR nAnt A) (hR : 0 < nR) (metaB : Buf Fl)
    (hb : nPol * nCh + nAnt * nPol ≤ metaB.len) :
    ∃ st, normalize Fl.r32 Fl.r64 sq nPol nCh nAnt (data, metaB) = some st ∧
      Track nR nPol nCh nAnt A D S metaB.len (fun _ => 3) st := by
  obtain ⟨st, D2, w, e, k1, k2, k4, k6, k7⟩ := normalize_form (RF := Fl.r32) (RD := Fl.r64) (sq := sq) h hA hR metaB hb
  refine ⟨st, e, D2, k1, k2, ?_, ?_⟩
  · intro j hj
    by_cases hjl : j < nPol * nCh
    · rw [k6 j hjl]
      exact Fl.isFloat_cast _
    · have hn0 : 0 < nAnt := Nat.pos_of_ne_zero (by rintro rfl; simp at hj; omega)
      have ej : j = nPol * nCh + (nAnt * ((j - nPol * nCh) / nAnt) + (j - nPol * nCh) % nAnt) := by
        rw [Nat.div_add_mod]; omega
      have hlt : (j - nPol * nCh) / nAnt < nPol := by
        rw [Nat.div_lt_iff_lt_mul hn0, Nat.mul_comm nPol nAnt]; omega
      rw [ej, k7 _ _ hlt (Nat.mod_lt _ hn0)]
      exact Fl.isFloat_cast _
  · intro r c p hr hc hp hcr _
    have hi := chan_lt (nPol := nPol) hc hp
    have ha := hA r hr
    obtain ⟨f1, f2⟩ := hF r _ hr hi
    rw [k6 _ hi, k7 p _ hp ha.1, k7 p _ hp ha.2, k4 r c p hr hc hp]
    have hre : ∀ v : Cx, ∀ s : Fl, (divRms Fl.r64 s v).re =
        (if Fl.eq s (.fin 0) then v.re else Fl.div Fl.r64 v.re s) ∧ (divRms Fl.r64 s v).im =
        (if Fl.eq s (.fin 0) then v.im else Fl.div Fl.r64 v.im s) := by
      intro v s
      unfold divRms
      split <;> exact ⟨rfl, rfl⟩
    constructor
    · simp only [Cx.scale, (hre _ _).1]
      exact Comp.start f1
    · simp only [Cx.scale, (hre _ _).2]
      exact Comp.start f2

/-! ## More iterations than needed do not change the result -/

theorem doWhile_more {σ : Type} {body : σ → Option (σ × Bool)} {fuel fuel' : Nat} (hle : fuel ≤ fuel') :
    ∀ {s s' : σ}, doWhile body fuel s = some (some s') → doWhile body fuel' s = some (some s') := by
  induction fuel generalizing fuel' with
  | zero => intro s s' e; simp [doWhile] at e
  | succ fuel ih =>
    intro s s' e
    obtain ⟨f, rfl⟩ : ∃ f, fuel' = f + 1 := ⟨fuel' - 1, by omega⟩
    unfold doWhile at e ⊢
    cases hb : body s with
    | none => rw [hb] at e; simp at e
    | some r =>
      rw [hb, Option.bind_some] at e
      rw [Option.bind_some]
      split at e
      · rename_i h
        rw [if_pos h]
        exact ih (by omega) e
      · rename_i h
        rw [if_neg h]
        exact e

theorem fitPols_more {RF RD : ℚ → Fl} {maxLevel : Fl} {fuel fuel' : Nat} (hle : fuel ≤ fuel') (p : Nat)
    {st : Block Cx × Buf Fl} : ∀ {st' : Block Cx × Buf Fl},
    fitPols RF RD nPol nCh nAnt maxLevel fuel p st = some (some st') →
    fitPols RF RD nPol nCh nAnt maxLevel fuel' p st = some (some st') := by
  induction p with
  | zero => exact fun e => e
  | succ p ih =>
    intro st' e
    unfold fitPols at e ⊢
    cases hq : fitPols RF RD nPol nCh nAnt maxLevel fuel p st with
    | none => rw [hq] at e; simp at e
    | some o =>
      cases o with
      | none => rw [hq] at e; simp at e
      | some st1 =>
        rw [hq, Option.bind_some] at e
        rw [ih hq, Option.bind_some]
        exact doWhile_more hle e

theorem fitToMaximum_more {RF RD : ℚ → Fl} {maxLevel : Fl} {fuel fuel' : Nat} (hle : fuel ≤ fuel')
    {st st' : Block Cx × Buf Fl}
    (e : fitToMaximum RF RD nPol nCh nAnt maxLevel fuel st = some (some st')) :
    fitToMaximum RF RD nPol nCh nAnt maxLevel fuel' st = some (some st') := by
  unfold fitToMaximum at e ⊢
  cases hq : fitChannels RF RD nPol nCh maxLevel st with
  | none => rw [hq] at e; simp at e
  | some st1 =>
    rw [hq, Option.bind_some] at e
    rw [Option.bind_some]
    exact fitPols_more hle nPol e

/-! ## Decoding one component -/

/-- Error bound of a component `x` for quantiser error `δ`, product `G` of the stored factors and `N`
iterations of the fitting loop. -/
def afBound (δ G x : ℚ) (N : Nat) : ℚ :=
  δ * G * (1 + 1 / 8000000) + |x| * ((N + 6) * (1 / 12000000)) + (1 + G) * 2 ^ (-149 : ℤ)

theorem decode_comp {x u g g1 g2 L lev δ : ℚ} {N : Nat} (hN : N ≤ 2000000)
    (l0 : (2 : ℚ) ^ (-126 : ℤ) ≤ g) (l1 : (2 : ℚ) ^ (-126 : ℤ) ≤ g1) (l2 : (2 : ℚ) ^ (-126 : ℤ) ≤ g2)
    (u0 : g ≤ 2 ^ (128 : ℤ)) (u1 : g1 ≤ 2 ^ (128 : ℤ)) (u2 : g2 ≤ 2 ^ (128 : ℤ))
    (hu : |u * (g * (g1 * g2)) - x| ≤ |x| * drift (4 + N))
    (hlev : |lev| ≤ 5 / 4 * L) (hq : |lev - Fl.rnd Fl.binary32 u| ≤ δ)
    (hLG : L * (g * (g1 * g2)) ≤ 2 ^ (127 : ℤ)) :
    ∃ y, Fl.cast Fl.r32 (Fl.mul Fl.r64 (.fin lev) (Fl.mul Fl.r64 (.fin g) (Fl.mul Fl.r64 (.fin g1)
        (.fin g2)))) = .fin y ∧ |y - x| ≤ afBound δ (g * (g1 * g2)) x N := by
  have zz : ∀ {i j : ℤ}, i ≤ j → (2 : ℚ) ^ i ≤ 2 ^ j := fun h => zpow_le_zpow_right₀ (by norm_num) h
  have hg0 : 0 < g := lt_of_lt_of_le (Fl.zp_pos _) l0
  have hg10 : 0 < g1 := lt_of_lt_of_le (Fl.zp_pos _) l1
  have hg20 : 0 < g2 := lt_of_lt_of_le (Fl.zp_pos _) l2
  have lP : (2 : ℚ) ^ (-252 : ℤ) ≤ g1 * g2 := le_two_mul l1 l2 (by norm_num)
  have uP : g1 * g2 ≤ 2 ^ (256 : ℤ) := two_mul_le u1 u2 hg20.le (by norm_num)
  have hP0 : 0 < g1 * g2 := mul_pos hg10 hg20
  obtain ⟨t1, et1, ht1⟩ := r64_factor (x := g1 * g2)
    (Or.inr (by rw [abs_of_pos hP0]; exact le_trans (zz (by norm_num)) lP))
    (by rw [abs_of_pos hP0]; exact le_trans uP (zz (by norm_num)))
  have ht1' := abs_le.mp ht1
  have ht10 : 0 < t1 := by linarith
  have e1 : Fl.mul Fl.r64 (.fin g1) (.fin g2) = .fin (g1 * g2 * t1) := et1
  have hG1 : 0 < g * (g1 * g2 * t1) := by positivity
  have lQ : (2 : ℚ) ^ (-253 : ℤ) ≤ g1 * g2 * t1 :=
    le_two_mul lP (j := -1) (by norm_num; linarith) (by norm_num)
  have uQ : g1 * g2 * t1 ≤ 2 ^ (257 : ℤ) :=
    two_mul_le uP (j := 1) (by norm_num; linarith) ht10.le (by norm_num)
  obtain ⟨t2, et2, ht2⟩ := r64_factor (x := g * (g1 * g2 * t1))
    (Or.inr (by rw [abs_of_pos hG1]; exact le_two_mul l0 lQ (by norm_num)))
    (by rw [abs_of_pos hG1]; exact two_mul_le u0 uQ (by positivity) (by norm_num))
  have e2 : Fl.mul Fl.r64 (.fin g) (.fin (g1 * g2 * t1)) = .fin (g * (g1 * g2 * t1) * t2) := et2
  rw [e1, e2]
  have hT : |t1 * t2 - 1| ≤ 1 / 4000000000000000 := near_mul ht1 ht2 (by norm_num)
  have eT : g * (g1 * g2 * t1) * t2 = g * (g1 * g2) * (t1 * t2) := by ring
  rw [eT]
  have hG0 : 0 < g * (g1 * g2) := by positivity
  generalize g * (g1 * g2) = G at *
  generalize t1 * t2 = t at *
  clear e1 e2 et1 et2 eT lP uP lQ uQ hG1 hP0
  have hT' := abs_le.mp hT
  have ht0 : 0 < t := by linarith
  -- the product with the level
  have e53 : (2 : ℚ) ^ (-(Fl.binary64.p : ℤ)) = 1 / 9007199254740992 := by norm_num [Fl.binary64]
  have e1075 : (2 : ℚ) ^ (Fl.binary64.emin - 1) ≤ 2 ^ (-150 : ℤ) * (1 / 1000) := by
    have h1 : (2 : ℚ) ^ (Fl.binary64.emin - 1) ≤ 2 ^ (-160 : ℤ) := zz (by norm_num [Fl.binary64])
    refine le_trans h1 ?_
    rw [show (-160 : ℤ) = -150 + -10 by norm_num, zpow_add₀ (by norm_num)]
    exact mul_le_mul_of_nonneg_left (by norm_num) (Fl.zp_pos _).le
  have e24 : (2 : ℚ) ^ (-(Fl.binary32.p : ℤ)) = 1 / 16777216 := by norm_num [Fl.binary32]
  have e150 : Fl.binary32.emin - 1 = -150 := by norm_num [Fl.binary32]
  have hlG : |lev * G| ≤ 5 / 4 * 2 ^ (127 : ℤ) := by
    rw [abs_mul, abs_of_pos hG0]
    calc |lev| * G ≤ 5 / 4 * L * G := mul_le_mul_of_nonneg_right hlev hG0.le
      _ = 5 / 4 * (L * G) := by ring
      _ ≤ _ := mul_le_mul_of_nonneg_left hLG (by norm_num)
  have hlGt : |lev * (G * t) - lev * G| ≤ |lev * G| * (1 / 4000000000000000) := by
    rw [show lev * (G * t) - lev * G = lev * G * (t - 1) by ring, abs_mul]
    exact mul_le_mul_of_nonneg_left hT (abs_nonneg _)
  have gP := Fl.rnd_gen_err (f := Fl.binary64) (lev * (G * t))
  rw [e53] at gP
  have t1 := abs_add_le (lev * (G * t) - lev * G) (lev * G)
  rw [sub_add_cancel] at t1
  have h128 : (2 : ℚ) ^ (128 : ℤ) = 2 ^ (127 : ℤ) * 2 := by norm_num
  have h127 : (1000 : ℚ) ≤ 2 ^ (127 : ℤ) := by norm_num
  have hu1 : (2 : ℚ) ^ (-150 : ℤ) ≤ 1 := by norm_num
  have hu0 := Fl.zp_pos (-150)
  have e149 : (2 : ℚ) ^ (-149 : ℤ) = 2 ^ (-150 : ℤ) * 2 := by norm_num
  have h1024 : (2 : ℚ) ^ (127 : ℤ) * 2 ≤ 2 ^ (1024 : ℤ) := by rw [← h128]; exact zz (by norm_num)
  have hPfin : Fl.mul Fl.r64 (.fin lev) (.fin (G * t)) = .fin (Fl.rnd Fl.binary64 (lev * (G * t))) := by
    simp only [Fl.mul]
    apply Fl.r64_fin
    have t2 := abs_add_le (Fl.rnd Fl.binary64 (lev * (G * t)) - lev * (G * t)) (lev * (G * t))
    rw [sub_add_cancel] at t2
    refine lt_of_lt_of_le ?_ h1024
    generalize (2 : ℚ) ^ (Fl.binary64.emin - 1) = w' at *
    generalize (2 : ℚ) ^ (-150 : ℤ) = v at *
    generalize (2 : ℚ) ^ (127 : ℤ) = w at *
    linarith
  rw [hPfin]
  have hP : |Fl.rnd Fl.binary64 (lev * (G * t)) - lev * G| ≤ |lev * G| * (1 / 2000000000000000) +
      2 ^ (-150 : ℤ) * (1 / 1000) := by
    have t2 := abs_add_le (Fl.rnd Fl.binary64 (lev * (G * t)) - lev * (G * t)) (lev * (G * t) - lev * G)
    rw [sub_add_sub_cancel] at t2
    have := abs_nonneg (lev * G)
    generalize (2 : ℚ) ^ (Fl.binary64.emin - 1) = w' at *
    generalize (2 : ℚ) ^ (-150 : ℤ) = v at *
    linarith
  generalize Fl.rnd Fl.binary64 (lev * (G * t)) = P at *
  have gR := Fl.rnd_gen_err (f := Fl.binary32) P
  rw [e24, e150] at gR
  have t2 := abs_add_le (P - lev * G) (lev * G)
  rw [sub_add_cancel] at t2
  refine ⟨Fl.rnd Fl.binary32 P, ?_, ?_⟩
  · simp only [Fl.cast]
    apply Fl.r32_fin
    rw [h128]
    have t3 := abs_add_le (Fl.rnd Fl.binary32 P - P) P
    rw [sub_add_cancel] at t3
    generalize (2 : ℚ) ^ (-150 : ℤ) = v at *
    generalize (2 : ℚ) ^ (127 : ℤ) = w at *
    linarith
  · -- the error of the level
    have hd := drift_le (k := 4 + N) (by omega)
    have hd2 := drift_half (k := 4 + N) (by omega)
    push_cast at hd
    have hN0 : (0 : ℚ) ≤ N := Nat.cast_nonneg N
    have hx0 := abs_nonneg x
    have gU := Fl.rnd_gen_err (f := Fl.binary32) u
    rw [e24, e150] at gU
    have hl1 : |lev - u| ≤ δ + (|u| * (1 / 16777216) + 2 ^ (-150 : ℤ)) := by
      have := abs_add_le (lev - Fl.rnd Fl.binary32 u) (Fl.rnd Fl.binary32 u - u)
      rw [sub_add_sub_cancel] at this
      linarith
    have hl2 : |lev * G - u * G| ≤ δ * G + |u| * G * (1 / 16777216) + G * 2 ^ (-150 : ℤ) := by
      rw [← sub_mul, abs_mul, abs_of_pos hG0]
      calc |lev - u| * G ≤ (δ + (|u| * (1 / 16777216) + 2 ^ (-150 : ℤ))) * G :=
            mul_le_mul_of_nonneg_right hl1 hG0.le
        _ = _ := by ring
    have hxd : |x| * drift (4 + N) ≤ |x| * ((4 + N) * (1 / 12500000)) := mul_le_mul_of_nonneg_left hd hx0
    have hxd2 : |x| * drift (4 + N) ≤ |x| * (1 / 2) := mul_le_mul_of_nonneg_left hd2 hx0
    have huG : |u| * G ≤ |x| * (3 / 2) := by
      have t3 := abs_add_le (u * G - x) x
      rw [sub_add_cancel, abs_mul u, abs_of_pos hG0] at t3
      linarith
    have hlx : |lev * G - x| ≤ δ * G + |x| * (3 / 2) * (1 / 16777216) + G * 2 ^ (-150 : ℤ) +
        |x| * ((4 + N) * (1 / 12500000)) := by
      have t3 := abs_add_le (lev * G - u * G) (u * G - x)
      rw [sub_add_sub_cancel] at t3
      linarith
    have hlGx : |lev * G| ≤ |x| + |lev * G - x| := by
      have := abs_add_le (lev * G - x) x
      rw [sub_add_cancel] at this
      linarith
    have t4 := abs_add_le (Fl.rnd Fl.binary32 P - P) (P - lev * G)
    have t5 := abs_add_le (Fl.rnd Fl.binary32 P - lev * G) (lev * G - x)
    rw [sub_add_sub_cancel] at t4 t5
    have hδ : 0 ≤ δ := le_trans (abs_nonneg _) hq
    have hδG := mul_nonneg hδ hG0.le
    have hGu := mul_pos hG0 hu0
    have exN : |x| * ((N + 6) * (1 / 12000000)) = |x| * N * (1 / 12000000) + |x| * (6 / 12000000) := by
      ring
    have exN' : |x| * ((4 + N) * (1 / 12500000)) = |x| * N * (1 / 12500000) + |x| * (4 / 12500000) := by
      ring
    have hxN := mul_nonneg hx0 hN0
    unfold afBound
    rw [exN, e149, show (1 + G) * (2 ^ (-150 : ℤ) * 2) = 2 * 2 ^ (-150 : ℤ) + 2 * (G * 2 ^ (-150 : ℤ)) by ring]
    rw [exN'] at hlx
    generalize G * (2 : ℚ) ^ (-150 : ℤ) = v1 at *
    generalize (2 : ℚ) ^ (-150 : ℤ) = v at *
    generalize δ * G = v2 at *
    generalize |x| * (N : ℚ) = v3 at *
    linarith

/-! ## The round trip -/

theorem rdVis_holds {n : Nat} (h : Holds nR n A D data) {r i : Nat} (hr : r < nR) (hi : i < n) :
    rdVis data r i = some (D r i) := by
  unfold rdVis
  rw [Buf.rd_some (by rw [h.rows]; exact hr), Option.bind_some, Buf.rd_some (by rw [h.len r hr]; exact hi),
    h.vis r i hr hi]

/-- **C80**: antenna-frequency normalised data in float and double arithmetic, `sq` is any function in the
place of the square root. Let `st0` be the block and the metadata after the RMS normalisation, with the
non-zero components of its cross-correlations between `2^-300` and `2^300`. Then the longest fitting loop
takes some number `N` of iterations, and `encode` ends if and only if `N` iterations are allowed. If `N` is
at most two million, then every counted cross-correlation of which the stored channel and antenna factors
are normal floats (and also the channel's RMS), and for which the product of the largest level and these
factors does not overflow, is decoded with an error of at most `afBound`: the quantiser's error times the
stored factors, plus a relative error of `(N + 6) / 12000000`. -/
theorem af_error_float {sq : Fl → Fl} {e : Encoder} {b l : Nat → ℚ} {L : ℚ} (hT : Table e b l L)
    (hLr : Fl.Repr Fl.binary32 L) (hlo : -(5 / 4 * L) ≤ l 0) (dithered : Bool) (dith : Nat → Nat) {δ : ℚ}
    (hacc : Accurate (encFn Fl.r32 e dithered) e.decode L δ) (hc0 : 0 < nCh) (hR : 0 < nR)
    (h : Holds nR (nPol * nCh) A D data) (hF : FloatBlock nR (nPol * nCh) D)
    (hA : AntennasBelow nR nAnt A) (metaB : Buf Fl) (hb : nPol * nCh + nAnt * nPol ≤ metaB.len)
    (sym : Buf Nat) (hs : nR * (nPol * nCh) * 2 ≤ sym.len) {st0 : Block Cx × Buf Fl}
    (hn : normalize Fl.r32 Fl.r64 sq nPol nCh nAnt (data, metaB) = some st0)
    (hrange : ∀ r i v m, r < nR → i < nPol * nCh → Cross A r → rdVis st0.1 r i = some v → Counted v m →
      m ≤ 2 ^ (300 : ℤ) ∧ ∀ a, (v.re = .fin a ∨ v.im = .fin a) → a = 0 ∨ (2 : ℚ) ^ (-300 : ℤ) ≤ |a|) :
    ∃ (N : Nat) (metaB' : Buf Fl) (sym' : Buf Nat),
      (∀ fuel, N ≤ fuel → encode Fl.r32 Fl.r64 sq (encFn Fl.r32 e dithered) e.maxQuantity nPol nCh nAnt
        dith fuel data metaB sym = some (some (metaB', sym'))) ∧
      (∀ fuel out, encode Fl.r32 Fl.r64 sq (encFn Fl.r32 e dithered) e.maxQuantity nPol nCh nAnt
        dith fuel data metaB sym = some (some out) → N ≤ fuel) ∧
      ∀ (dest : Block Cx) (r : Nat), r < nR → r < dest.len →
        ∃ dest', decode Fl.r32 Fl.r64 e.decode nPol nCh nAnt metaB' dest sym' r (A r).1 (A r).2 =
            some dest' ∧
          ((dest'.get r).antenna1, (dest'.get r).antenna2) = A r ∧
          (∀ j, j ≠ r → dest'.get j = dest.get j) ∧
          (N ≤ 2000000 → Cross A r → ∀ c p m g0 g g1 g2, c < nCh → p < nPol →
            Counted (D r (c * nPol + p)) m →
            st0.2.get (c * nPol + p) = .fin g0 → (2 : ℚ) ^ (-126 : ℤ) ≤ g0 →
            metaB'.get (c * nPol + p) = .fin g → (2 : ℚ) ^ (-126 : ℤ) ≤ g →
            metaB'.get (nPol * nCh + (nAnt * p + (A r).1)) = .fin g1 → (2 : ℚ) ^ (-126 : ℤ) ≤ g1 →
            metaB'.get (nPol * nCh + (nAnt * p + (A r).2)) = .fin g2 → (2 : ℚ) ^ (-126 : ℤ) ≤ g2 →
            L * (g * (g1 * g2)) ≤ 2 ^ (127 : ℤ) →
            ∀ a, ((D r (c * nPol + p)).re = .fin a →
                ∃ y, ((dest'.get r).vis.get (c * nPol + p)).re = .fin y ∧
                  |y - a| ≤ afBound δ (g * (g1 * g2)) a N) ∧
              ((D r (c * nPol + p)).im = .fin a →
                ∃ y, ((dest'.get r).vis.get (c * nPol + p)).im = .fin y ∧
                  |y - a| ≤ afBound δ (g * (g1 * g2)) a N)) := by
  have hL := hT.pos
  have hL2 : L < 2 ^ (128 : ℤ) := lt_of_le_of_lt hT.le (by norm_num [fltMax])
  -- the normalisation
  obtain ⟨st0', en, htrack⟩ := Track.normalize (S := fun i => Normal (st0.2.get i)) (sq := sq) hF h hA hR
    metaB hb
  rw [hn] at en
  obtain rfl := Option.some.inj en
  obtain ⟨data0, meta0⟩ := st0
  obtain ⟨D0, k1, k2, k3, _⟩ := id htrack
  simp only at k1 k2 k3 hrange htrack
  -- the fit
  obtain ⟨N0, Y, st1, ef, y1, y2, y3⟩ := af_fit_r64 (RF := Fl.r32) hL hLr hL2 hA hc0 k1 meta0 (by omega)
    (fun r i m hr hi hcr hm => hrange r i _ m hr hi hcr (rdVis_holds k1 hr hi) hm)
  have hex : ∃ N, ∃ st, fitToMaximum Fl.r32 Fl.r64 nPol nCh nAnt (.fin L) N (data0, meta0) =
      some (some st) := ⟨N0, st1, ef N0 (Nat.le_refl _)⟩
  classical
  obtain ⟨N, ⟨st1', eN⟩, hmin⟩ : ∃ N, (∃ st, fitToMaximum Fl.r32 Fl.r64 nPol nCh nAnt (.fin L) N
      (data0, meta0) = some (some st)) ∧ ∀ fuel st, fitToMaximum Fl.r32 Fl.r64 nPol nCh nAnt (.fin L) fuel
      (data0, meta0) = some (some st) → N ≤ fuel :=
    ⟨Nat.find hex, Nat.find_spec hex, fun fuel st he => Nat.find_min' hex ⟨st, he⟩⟩
  obtain rfl : st1 = st1' := by
    have h1 := fitToMaximum_more (le_max_left N N0) eN
    rw [ef _ (le_max_right N N0)] at h1
    exact Option.some.inj (Option.some.inj h1)
  obtain ⟨data1, meta1⟩ := st1
  simp only at y1 y2
  -- the quantisation
  obtain ⟨sym', e2, g1, g2, _, g4⟩ := quantise_total (RF := Fl.r32) (hT.total Fl.r32 dithered)
    (dith := dith) y1 sym hs
  have hmq := hT.maxQuantity
  refine ⟨N, meta1, sym', ?_, ?_, ?_⟩
  · intro fuel hf
    unfold encode
    rw [hn, Option.bind_some, hmq, fitToMaximum_more hf eN, Option.bind_some]
    simp only
    rw [e2]
    rfl
  · intro fuel out he
    unfold encode at he
    rw [hn, Option.bind_some, hmq] at he
    cases hq : fitToMaximum Fl.r32 Fl.r64 nPol nCh nAnt (.fin L) fuel (data0, meta0) with
    | none => rw [hq] at he; simp at he
    | some o =>
      cases o with
      | none => rw [hq] at he; simp at he
      | some st => exact hmin fuel st hq
  · intro dest r hr hd
    have hrow : (r * (nPol * nCh) + nPol * nCh) * 2 ≤ nR * (nPol * nCh) * 2 := by
      have : (r + 1) * (nPol * nCh) ≤ nR * (nPol * nCh) := Nat.mul_le_mul_right _ hr
      rw [Nat.add_mul, Nat.one_mul] at this
      omega
    obtain ⟨dest', ed, _, d2, d3, d4, _, d6⟩ := decode_spec (RF := Fl.r32) (RD := Fl.r64)
      (nPol := nPol) (nCh := nCh) hT meta1 sym' dest r (A r).1 (A r).2 hd (hA r hr).1 (hA r hr).2
      (by omega) (by omega) (fun j hj => g2 j (by omega))
    refine ⟨dest', ed, by rw [d3, d4], d2, ?_⟩
    intro hN hcr c p m q0 q q1 q2 hc hp hm m0 l0 mq lq m1 l1 m2 l2 hov
    have hi := chan_lt (nPol := nPol) hc hp
    obtain ⟨D1, t1, t2, t3, t4⟩ := htrack.fit hF hA hc0 (by omega) (fun i _ hs => hs) N (by omega) eN
    simp only at t1 t2 t3 t4
    obtain ⟨c1, c2⟩ := t4 r c p hr hc hp hcr ⟨q0, m0, l0⟩
    have eY : D1 r (c * nPol + p) = Y r (c * nPol + p) := by
      rw [← t1.vis r _ hr hi, y1.vis r _ hr hi]
    rw [eY] at c1 c2
    have i1 := antIndex_lt (hA r hr).1 hp
    have i2 := antIndex_lt (hA r hr).2 hp
    have uq : q ≤ 2 ^ (128 : ℤ) := le_trans (le_abs_self _) (t3 _ (by omega) q mq).2.le
    have uq1 : q1 ≤ 2 ^ (128 : ℤ) := le_trans (le_abs_self _) (t3 _ (by omega) q1 m1).2.le
    have uq2 : q2 ≤ 2 ^ (128 : ℤ) := le_trans (le_abs_self _) (t3 _ (by omega) q2 m2).2.le
    obtain ⟨s1, s2⟩ := g4 r _ hr hi
    have hd6 := d6 _ hi
    rw [flat_mod hp, mq, m1, m2] at hd6
    -- the sample is still counted
    obtain ⟨m', hm'⟩ : ∃ m', Counted (Y r (c * nPol + p)) m' := by
      obtain ⟨x, ex, hb'⟩ := hm
      obtain ⟨u, eu, _⟩ := c1.2.2 q q1 q2 x mq m1 m2 lq l1 l2 ex
      rcases hb' with ⟨y, ey, _⟩ | ⟨ey, _⟩
      · obtain ⟨v, ev, _⟩ := c2.2.2 q q1 q2 y mq m1 m2 lq l1 l2 ey
        exact ⟨_, u, eu, Or.inl ⟨v, ev, rfl⟩⟩
      · exact ⟨_, u, eu, Or.inr ⟨c2.1 ey, rfl⟩⟩
    have hcell := y3 r _ m' hr hi hcr hm'
    have hlev : ∀ s y, s < e.quantCount → e.decode s = some (.fin y) → |y| ≤ 5 / 4 * L := by
      intro s y hs' hy
      have := Row.level_le hT hlo s y hy
      exact this
    have key : ∀ (w z : Fl) (d j : Nat) (a : ℚ), Comp (4 + N) (meta1.get (c * nPol + p))
        (meta1.get (nPol * nCh + (nAnt * p + (A r).1))) (meta1.get (nPol * nCh + (nAnt * p + (A r).2))) w z →
        w = .fin a → (∀ u, z = .fin u → ∃ y, Fl.cast Fl.r32 (.fin u) = .fin y ∧ |y| ≤ L) →
        encFn Fl.r32 e dithered (Fl.cast Fl.r32 z) d = some (sym'.get j) → sym'.get j < e.quantCount →
        ∃ y, Fl.cast Fl.r32 (Fl.mul Fl.r64 (e.level (sym'.get j)) (Fl.mul Fl.r64 (.fin q)
            (Fl.mul Fl.r64 (.fin q1) (.fin q2)))) = .fin y ∧ |y - a| ≤ afBound δ (q * (q1 * q2)) a N := by
      intro w z d j a hcomp hw hz henc hj
      obtain ⟨u, eu, hu⟩ := hcomp.2.2 q q1 q2 a mq m1 m2 lq l1 l2 hw
      obtain ⟨y, ey, hy⟩ := hz u eu
      have ery : y = Fl.rnd Fl.binary32 u := by
        simp only [Fl.cast, Fl.r32, Fl.round] at ey
        split at ey
        · exact (Fl.fin.inj ey).symm
        · simp at ey
      obtain ⟨s, lv, a1, a2, a3⟩ := hacc y d hy
      rw [eu, ey, a1] at henc
      have es := Option.some.inj henc
      have elv : e.level (sym'.get j) = .fin lv := by
        have := hT.decode_some hj
        rw [← es, a2] at this
        rw [← es]
        exact (Option.some.inj this).symm
      rw [elv]
      rw [ery] at a3
      exact decode_comp hN lq l1 l2 uq uq1 uq2 hu (hlev s lv (by rw [es]; exact hj) a2) a3 hov
    intro a
    rw [hd6]
    exact ⟨fun ha => key _ _ _ _ a c1 ha (fun u hu => hcell u (Or.inl hu)) s1 (g2 _ (by omega)),
      fun ha => key _ _ _ _ a c2 ha (fun u hu => hcell u (Or.inr hu)) s2 (g2 _ (by omega))⟩

/-! ## A block that meets the hypotheses -/

/-- A square root with absolute error of about `2^-30`. -/
def sampleSqrt : Fl → Fl
  | .fin x => .fin ((Nat.sqrt (x * 2 ^ 60).floor.toNat : ℚ) / 2 ^ 30)
  | _ => .nan

/-- One baseline. -/
def sampleAnt (_ : Nat) : Nat × Nat := (0, 1)

/-- Two channels; one sample is half NaN. -/
def sampleVis (r i : Nat) : Cx :=
  if r = 0 then if i = 0 then ⟨.fin 3, .fin (-4)⟩ else ⟨.fin 6, .fin 8⟩
  else if i = 0 then ⟨.fin (-1 / 2), .fin 1⟩ else ⟨.fin 2, .nan⟩

/-- The block with these values. Not in the code. -/
def sampleBlock : Block Cx := ⟨2, fun r => ⟨(sampleAnt r).1, (sampleAnt r).2, ⟨2, sampleVis r⟩⟩⟩

/-- The value is a normal float. -/
def isNormal : Fl → Bool
  | .fin g => decide ((2 : ℚ) ^ (-126 : ℤ) ≤ g)
  | _ => false

/-- The value is not finite, zero, or between `2^-300` and `2^300`. -/
def isMiddle : Fl → Bool
  | .fin a => decide (a = 0) || (decide ((2 : ℚ) ^ (-300 : ℤ) ≤ |a|) && decide (|a| ≤ (2 : ℚ) ^ (300 : ℤ)))
  | _ => true

/-- The conditions on the normalised block, and those on the metadata of the fit to maximum 1, which ends
after one iteration. -/
def sampleCheck : Bool :=
  match normalize Fl.r32 Fl.r64 sampleSqrt 1 2 2 (sampleBlock, ⟨4, fun _ => .nan⟩) with
  | none => false
  | some st0 =>
    (List.range 2).all (fun r => (List.range 2).all fun i => match rdVis st0.1 r i with
      | none => true
      | some v => isMiddle v.re && isMiddle v.im) &&
    (List.range 2).all (fun i => isNormal (st0.2.get i)) &&
    match fitToMaximum Fl.r32 Fl.r64 1 2 2 (.fin 1) 1 st0 with
    | some (some st1) => (List.range 4).all fun i => isNormal (st1.2.get i) && Fl.lt (st1.2.get i) (.fin 16)
    | _ => false

theorem sampleCheck_ok : sampleCheck = true := by decide +kernel

theorem isNormal_iff {x : Fl} (h : isNormal x = true) : Normal x := by
  cases x with
  | fin g => exact ⟨g, rfl, by simpa [isNormal] using h⟩
  | inf s => simp [isNormal] at h
  | nan => simp [isNormal] at h

theorem isMiddle_iff {a : ℚ} (h : isMiddle (.fin a) = true) :
    a = 0 ∨ ((2 : ℚ) ^ (-300 : ℤ) ≤ |a| ∧ |a| ≤ (2 : ℚ) ^ (300 : ℤ)) := by
  simpa only [isMiddle, Bool.or_eq_true, Bool.and_eq_true, decide_eq_true_eq] using h

theorem isFloat_of_cast {x : Fl} (h : Fl.cast Fl.r32 x = x) : Fl.IsFloat x := by
  rw [← h]
  exact Fl.isFloat_cast x

/-- The hypotheses of `af_error_float`, with largest level 1. -/
example : Holds 2 (1 * 2) sampleAnt sampleVis sampleBlock ∧ FloatBlock 2 (1 * 2) sampleVis ∧
    AntennasBelow 2 2 sampleAnt ∧
    ∃ st0 st1, normalize Fl.r32 Fl.r64 sampleSqrt 1 2 2 (sampleBlock, ⟨4, fun _ => .nan⟩) = some st0 ∧
      (∀ r i v m, r < 2 → i < 1 * 2 → Cross sampleAnt r → rdVis st0.1 r i = some v → Counted v m →
        m ≤ 2 ^ (300 : ℤ) ∧ ∀ a, (v.re = .fin a ∨ v.im = .fin a) → a = 0 ∨ (2 : ℚ) ^ (-300 : ℤ) ≤ |a|) ∧
      (∀ i, i < 2 → Normal (st0.2.get i)) ∧
      fitToMaximum Fl.r32 Fl.r64 1 2 2 (.fin 1) 1 st0 = some (some st1) ∧
      (∀ i, i < 4 → Normal (st1.2.get i)) ∧
      (∀ i j k g g1 g2, i < 4 → j < 4 → k < 4 → st1.2.get i = .fin g → st1.2.get j = .fin g1 →
        st1.2.get k = .fin g2 → 1 * (g * (g1 * g2)) ≤ 2 ^ (127 : ℤ)) := by
  refine ⟨⟨rfl, fun _ _ => rfl, fun _ _ => rfl, fun _ _ _ _ => rfl⟩, ?_, ?_, ?_⟩
  · intro r i _ _
    unfold sampleVis
    split_ifs <;> exact ⟨isFloat_of_cast (by decide +kernel), isFloat_of_cast (by decide +kernel)⟩
  · intro r _
    exact ⟨by norm_num [sampleAnt], by norm_num [sampleAnt]⟩
  · have hck := sampleCheck_ok
    unfold sampleCheck at hck
    split at hck
    · simp at hck
    · rename_i st0 e0
      simp only [Bool.and_eq_true, List.all_eq_true, List.mem_range] at hck
      obtain ⟨⟨c1, c2⟩, c3⟩ := hck
      split at c3
      · rename_i st1 e1
        simp only [List.all_eq_true, List.mem_range, Bool.and_eq_true] at c3
        refine ⟨st0, st1, e0, ?_, fun i hi => isNormal_iff (c2 i hi), e1,
          fun i hi => isNormal_iff (c3 i hi).1, ?_⟩
        · intro r i v m hr hi _ hv hm
          have h1 := c1 r hr i (by omega)
          rw [hv] at h1
          simp only [Bool.and_eq_true] at h1
          have big : ∀ a, isMiddle (.fin a) = true → |a| ≤ 2 ^ (300 : ℤ) := by
            intro a ha
            rcases isMiddle_iff ha with rfl | h
            · rw [abs_zero]; exact (Fl.zp_pos _).le
            · exact h.2
          have small : ∀ a, isMiddle (.fin a) = true → a = 0 ∨ (2 : ℚ) ^ (-300 : ℤ) ≤ |a| :=
            fun a ha => (isMiddle_iff ha).imp id And.left
          refine ⟨?_, ?_⟩
          · obtain ⟨x, ex, ⟨y, ey, rfl⟩ | ⟨_, rfl⟩⟩ := hm
            · exact max_le (big x (by rw [← ex]; exact h1.1)) (big y (by rw [← ey]; exact h1.2))
            · exact big x (by rw [← ex]; exact h1.1)
          · rintro a (ha | ha)
            · exact small a (by rw [← ha]; exact h1.1)
            · exact small a (by rw [← ha]; exact h1.2)
        · intro i j k g g1 g2 hi hj hk e e' e''
          have pos : ∀ i g, i < 4 → st1.2.get i = .fin g → 0 < g ∧ g ≤ 16 := by
            intro i g hi e
            obtain ⟨g', eg, lg⟩ := isNormal_iff (c3 i hi).1
            have h2 := (c3 i hi).2
            rw [e] at eg h2
            obtain rfl : g = g' := by simpa using eg
            exact ⟨lt_of_lt_of_le (Fl.zp_pos _) lg, (by simpa [Fl.lt] using h2 : g < 16).le⟩
          obtain ⟨p0, u0⟩ := pos i g hi e
          obtain ⟨p1, u1⟩ := pos j g1 hj e'
          obtain ⟨p2, u2⟩ := pos k g2 hk e''
          have h3 : g * (g1 * g2) ≤ 16 * (16 * 16) :=
            mul_le_mul u0 (mul_le_mul u1 u2 p2.le (by norm_num)) (by positivity) (by norm_num)
          rw [one_mul]
          exact le_trans h3 (by norm_num)
      · simp at c3

end Dysco.AF
