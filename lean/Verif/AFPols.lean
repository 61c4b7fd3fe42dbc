import Verif.AFFloat

/-!
# C138 for antenna-frequency normalisation: every polarisation is encoded on its own

The functions of `aftimeblockencoder.cc` work on one polarisation at a time. Polarisation `p` of a block with `nPol`
polarisations is followed next to polarisation `p'` of a block with `nPol'` polarisations that holds the same values.
-/

namespace Dysco.AF
open TimeBlock

variable {nR nPol nCh nAnt nPol' nPol'' p p' p'' : Nat} {A : Nat → Nat × Nat} {D D' : Nat → Nat → Cx} {data data' : Block Cx}

theorem loop_congr {σ : Type} {n : Nat} {b1 b2 : Nat → σ → Option σ} (h : ∀ i s, i < n → b1 i s = b2 i s) (s : σ) :
    forRange n b1 s = forRange n b2 s := by
  induction n with
  | zero => rfl
  | succ n ih =>
    rw [forRange, forRange, ih (fun i s hi => h i s (by omega))]
    exact congrArg _ (funext fun t => h n t (by omega))

/-- The rows hold the same values in the polarisation. Not in the code. -/
structure AlikePol (nCh nPol p nPol' p' : Nat) (data data' : Block Cx) : Prop where
  rows : data'.len = data.len
  ant1 : ∀ r, r < data.len → (data'.get r).antenna1 = (data.get r).antenna1
  ant2 : ∀ r, r < data.len → (data'.get r).antenna2 = (data.get r).antenna2
  vis : ∀ r c, r < data.len → c < nCh → (data'.get r).vis.rd (c * nPol' + p') = (data.get r).vis.rd (c * nPol + p)

theorem AlikePol.baselineMeas (h : AlikePol nCh nPol p nPol' p' data data') (RD : ℚ → Fl) :
    baselineMeas RD nPol' nCh nAnt p' data' = baselineMeas RD nPol nCh nAnt p data := by
  unfold AF.baselineMeas
  rw [h.rows]
  refine loop_congr (fun r s hr => ?_) _
  rw [Buf.rd_some hr, Buf.rd_some (by rw [h.rows]; exact hr), Option.bind_some, Option.bind_some, h.ant1 r hr, h.ant2 r hr]
  split
  · rfl
  · refine loop_congr (fun c t hc => ?_) _
    rw [h.vis r c hr hc]

theorem AlikePol.antennaRms (h : AlikePol nCh nPol p nPol' p' data data') (RD : ℚ → Fl) (sq : Fl → Fl) :
    antennaRms RD sq nPol' nCh nAnt p' data' = antennaRms RD sq nPol nCh nAnt p data := by
  unfold AF.antennaRms
  rw [h.baselineMeas RD]

theorem AlikePol.crossMax (h : AlikePol nCh nPol p nPol' p' data data') {c : Nat} (hc : c < nCh) :
    crossMax data' (c * nPol' + p') = crossMax data (c * nPol + p) := by
  unfold AF.crossMax
  rw [h.rows]
  refine loop_congr (fun r s hr => ?_) _
  rw [Buf.rd_some hr, Buf.rd_some (by rw [h.rows]; exact hr), Option.bind_some, Option.bind_some, h.ant1 r hr, h.ant2 r hr,
    h.vis r c hr hc]

theorem AlikePol.channelIncrease (h : AlikePol nCh nPol p nPol' p' data data') (RD : ℚ → Fl) {c : Nat} (hc : c < nCh) (f : Fl) :
    channelIncrease RD data' (c * nPol' + p') f = channelIncrease RD data (c * nPol + p) f := by
  unfold AF.channelIncrease
  rw [h.rows]
  refine loop_congr (fun r s hr => ?_) _
  rw [Buf.rd_some hr, Buf.rd_some (by rw [h.rows]; exact hr), Option.bind_some, Option.bind_some, h.ant1 r hr, h.ant2 r hr,
    h.vis r c hr hc]

theorem AlikePol.bestChannel (h : AlikePol nCh nPol p nPol' p' data data') (RD : ℚ → Fl) (maxLevel : Fl) :
    bestChannel RD nPol' nCh p' maxLevel data' = bestChannel RD nPol nCh p maxLevel data := by
  unfold AF.bestChannel
  refine loop_congr (fun c s hc => ?_) _
  rw [h.crossMax hc]
  simp only [h.channelIncrease RD hc]

theorem AlikePol.antennaMax (h : AlikePol nCh nPol p nPol' p' data data') :
    antennaMax nPol' nCh nAnt p' data' = antennaMax nPol nCh nAnt p data := by
  unfold AF.antennaMax
  rw [h.rows]
  refine loop_congr (fun r s hr => ?_) _
  rw [Buf.rd_some hr, Buf.rd_some (by rw [h.rows]; exact hr), Option.bind_some, Option.bind_some, h.ant1 r hr, h.ant2 r hr]
  split
  · rfl
  · refine loop_congr (fun c t hc => ?_) _
    rw [h.vis r c hr hc]

theorem AlikePol.antennaIncrease (h : AlikePol nCh nPol p nPol' p' data data') (RD : ℚ → Fl) (maxLevel : Fl) (mx : Buf Fl) :
    antennaIncrease RD nPol' nCh nAnt p' maxLevel mx data' = antennaIncrease RD nPol nCh nAnt p maxLevel mx data := by
  unfold AF.antennaIncrease
  rw [h.rows]
  refine loop_congr (fun r s hr => ?_) _
  rw [Buf.rd_some hr, Buf.rd_some (by rw [h.rows]; exact hr), Option.bind_some, Option.bind_some, h.ant1 r hr, h.ant2 r hr]
  split
  · rfl
  · congr 1
    funext m1
    congr 1
    funext m2
    refine loop_congr (fun c t hc => ?_) _
    rw [h.vis r c hr hc]

/-- The values of a block. Not in the code. -/
def vals (data : Block Cx) (r i : Nat) : Cx := (data.get r).vis.get i

/-- A state of the encoder for a block of the shape. Not in the code. -/
structure Sized (nR nCh nAnt nPol : Nat) (A : Nat → Nat × Nat) (st : Block Cx × Buf Fl) : Prop where
  holds : Holds nR (nPol * nCh) A (vals st.1) st.1
  len : nPol * nCh + nAnt * nPol ≤ st.2.len

theorem holds_vals (h : Holds nR (nPol * nCh) A D data) : Holds nR (nPol * nCh) A (vals data) data :=
  ⟨h.rows, h.len, h.ant, fun _ _ _ _ => rfl⟩

/-- Two states agree in the values, the channel factors and the antenna factors of a polarisation. Not in the code. -/
structure SamePol (nR nCh nAnt : Nat) (A : Nat → Nat × Nat) (nPol p nPol' p' : Nat) (st st' : Block Cx × Buf Fl) : Prop where
  left : Sized nR nCh nAnt nPol A st
  right : Sized nR nCh nAnt nPol' A st'
  val : ∀ r c, r < nR → c < nCh → vals st'.1 r (c * nPol' + p') = vals st.1 r (c * nPol + p)
  chan : ∀ c, c < nCh → st'.2.get (c * nPol' + p') = st.2.get (c * nPol + p)
  anten : ∀ a, a < nAnt → st'.2.get (nPol' * nCh + (nAnt * p' + a)) = st.2.get (nPol * nCh + (nAnt * p + a))

theorem SamePol.refl {st : Block Cx × Buf Fl} (h : Sized nR nCh nAnt nPol A st) : SamePol nR nCh nAnt A nPol p nPol p st st :=
  ⟨h, h, fun _ _ _ _ => rfl, fun _ _ => rfl, fun _ _ => rfl⟩

theorem SamePol.symm {st st' : Block Cx × Buf Fl} (h : SamePol nR nCh nAnt A nPol p nPol' p' st st') :
    SamePol nR nCh nAnt A nPol' p' nPol p st' st :=
  ⟨h.right, h.left, fun r c hr hc => (h.val r c hr hc).symm, fun c hc => (h.chan c hc).symm, fun a ha => (h.anten a ha).symm⟩

theorem SamePol.trans {st st' st'' : Block Cx × Buf Fl} (h : SamePol nR nCh nAnt A nPol p nPol' p' st st')
    (h' : SamePol nR nCh nAnt A nPol' p' nPol'' p'' st' st'') : SamePol nR nCh nAnt A nPol p nPol'' p'' st st'' :=
  ⟨h.left, h'.right, fun r c hr hc => (h'.val r c hr hc).trans (h.val r c hr hc),
    fun c hc => (h'.chan c hc).trans (h.chan c hc), fun a ha => (h'.anten a ha).trans (h.anten a ha)⟩

theorem SamePol.alike {st st' : Block Cx × Buf Fl} (h : SamePol nR nCh nAnt A nPol p nPol' p' st st') (hp : p < nPol)
    (hp' : p' < nPol') : AlikePol nCh nPol p nPol' p' st.1 st'.1 := by
  have hl := h.left.holds
  have hr' := h.right.holds
  refine ⟨by rw [hl.rows, hr'.rows], fun r hr => ?_, fun r hr => ?_, fun r c hr hc => ?_⟩ <;> rw [hl.rows] at hr
  · exact congrArg Prod.fst ((hr'.ant r hr).trans (hl.ant r hr).symm)
  · exact congrArg Prod.snd ((hr'.ant r hr).trans (hl.ant r hr).symm)
  · rw [Buf.rd_some (by rw [hr'.len r hr]; exact chan_lt hc hp'), Buf.rd_some (by rw [hl.len r hr]; exact chan_lt hc hp)]
    exact congrArg some (h.val r c hr hc)

/-- The factors of different antennas or polarisations are in different places. -/
theorem anten_ne {a a' q : Nat} (hq : q ≠ p) (ha : a < nAnt) (ha' : a' < nAnt) :
    nPol * nCh + (nAnt * p + a) ≠ nPol * nCh + (nAnt * q + a') := by
  intro he
  have : p * nAnt + a = q * nAnt + a' := by rw [Nat.mul_comm p, Nat.mul_comm q]; omega
  exact hq (flat_inj ha ha' this).1.symm

theorem anten_inj {a a' : Nat} (he : nPol * nCh + (nAnt * p + a) = nPol * nCh + (nAnt * p + a')) : a = a' := by omega

/-- `changeChannelFactor` on a channel of the polarisation. -/
theorem SamePol.changeChannel {RF RD : ℚ → Fl} {st st' : Block Cx × Buf Fl}
    (h : SamePol nR nCh nAnt A nPol p nPol' p' st st') (hp : p < nPol) (hp' : p' < nPol') {c : Nat} (hc : c < nCh) (f : Fl) :
    ∃ s s', changeChannel RF RD st (c * nPol + p) f = some s ∧ changeChannel RF RD st' (c * nPol' + p') f = some s' ∧
      SamePol nR nCh nAnt A nPol p nPol' p' s s' := by
  obtain ⟨data, metaB⟩ := st
  obtain ⟨data', metaB'⟩ := st'
  have l1 := h.left.len
  have l2 := h.right.len
  simp only at l1 l2
  obtain ⟨D1, d1, e1, h1, v1, w1⟩ := changeChannel_spec (RF := RF) (RD := RD) h.left.holds metaB (chan_lt hc hp) (by omega) f
  obtain ⟨D2, d2, e2, h2, v2, w2⟩ := changeChannel_spec (RF := RF) (RD := RD) h.right.holds metaB' (chan_lt hc hp') (by omega) f
  refine ⟨_, _, e1, e2, ⟨⟨holds_vals h1, l1⟩, ⟨holds_vals h2, l2⟩, ?_, ?_, ?_⟩⟩
  · intro r c' hr hc'
    rw [vals, vals, h1.vis r _ hr (chan_lt hc' hp), h2.vis r _ hr (chan_lt hc' hp')]
    by_cases he : c' = c
    · subst he
      rw [v1 r hr, v2 r hr, h.val r c' hr hc]
    · rw [w1 r _ (fun hh => he (flat_inj hp hp hh).1), w2 r _ (fun hh => he (flat_inj hp' hp' hh).1)]
      exact h.val r c' hr hc'
  · intro c' hc'
    simp only
    by_cases he : c' = c
    · subst he
      rw [if_pos rfl, if_pos rfl, h.chan c' hc]
    · rw [if_neg (fun hh => he (flat_inj hp hp hh).1), if_neg (fun hh => he (flat_inj hp' hp' hh).1)]
      exact h.chan c' hc'
  · intro a ha
    have := chan_lt (nPol := nPol) hc hp
    have := chan_lt (nPol := nPol') hc hp'
    simp only
    rw [if_neg (by omega), if_neg (by omega)]
    exact h.anten a ha

/-- `changeChannelFactor` on a channel of another polarisation. -/
theorem frame_changeChannel {RF RD : ℚ → Fl} {st : Block Cx × Buf Fl} (h : Sized nR nCh nAnt nPol A st) (hp : p < nPol)
    {q : Nat} (hq : q < nPol) (hpq : q ≠ p) {c : Nat} (hc : c < nCh) (f : Fl) :
    ∃ s, changeChannel RF RD st (c * nPol + q) f = some s ∧ SamePol nR nCh nAnt A nPol p nPol p st s := by
  obtain ⟨data, metaB⟩ := st
  have l1 := h.len
  simp only at l1
  obtain ⟨D1, d1, e1, h1, v1, w1⟩ := changeChannel_spec (RF := RF) (RD := RD) h.holds metaB (chan_lt hc hq) (by omega) f
  refine ⟨_, e1, h, ⟨holds_vals h1, l1⟩, ?_, ?_, ?_⟩
  · intro r c' hr hc'
    rw [vals, h1.vis r _ hr (chan_lt hc' hp), w1 r _ (fun hh => hpq (flat_inj hp hq hh).2.symm)]
  · intro c' hc'
    simp only
    rw [if_neg (fun hh => hpq (flat_inj hp hq hh).2.symm)]
  · intro a ha
    have := chan_lt (nPol := nPol) hc hq
    simp only
    rw [if_neg (by omega)]

/-- `changeAntennaFactor` on the polarisation. -/
theorem SamePol.changeAntenna {RF RD : ℚ → Fl} {st st' : Block Cx × Buf Fl}
    (h : SamePol nR nCh nAnt A nPol p nPol' p' st st') (hp : p < nPol) (hp' : p' < nPol') {a : Nat} (ha : a < nAnt) (f : Fl) :
    ∃ s s', changeAntenna RF RD nPol nCh nAnt st a p f = some s ∧ changeAntenna RF RD nPol' nCh nAnt st' a p' f = some s' ∧
      SamePol nR nCh nAnt A nPol p nPol' p' s s' := by
  obtain ⟨data, metaB⟩ := st
  obtain ⟨data', metaB'⟩ := st'
  have l1 := h.left.len
  have l2 := h.right.len
  simp only at l1 l2
  obtain ⟨D1, d1, e1, h1, v1, w1⟩ := changeAntenna_spec (RF := RF) (RD := RD) h.left.holds metaB ha hp l1 f
  obtain ⟨D2, d2, e2, h2, v2, w2⟩ := changeAntenna_spec (RF := RF) (RD := RD) h.right.holds metaB' ha hp' l2 f
  refine ⟨_, _, e1, e2, ⟨⟨holds_vals h1, l1⟩, ⟨holds_vals h2, l2⟩, ?_, ?_, ?_⟩⟩
  · intro r c hr hc
    rw [vals, vals, h1.vis r _ hr (chan_lt hc hp), h2.vis r _ hr (chan_lt hc hp'), v1 r c hr hc, v2 r c hr hc, h.val r c hr hc]
  · intro c hc
    have := chan_lt (nPol := nPol) hc hp
    have := chan_lt (nPol := nPol') hc hp'
    simp only
    rw [if_neg (by omega), if_neg (by omega)]
    exact h.chan c hc
  · intro a' ha'
    simp only
    by_cases he : a' = a
    · subst he
      rw [if_pos rfl, if_pos rfl, h.anten a' ha]
    · rw [if_neg (fun hh => he (anten_inj hh)), if_neg (fun hh => he (anten_inj hh))]
      exact h.anten a' ha'

/-- `changeAntennaFactor` on another polarisation. -/
theorem frame_changeAntenna {RF RD : ℚ → Fl} {st : Block Cx × Buf Fl} (h : Sized nR nCh nAnt nPol A st) (hp : p < nPol)
    {q : Nat} (hq : q < nPol) (hpq : q ≠ p) {a : Nat} (ha : a < nAnt) (f : Fl) :
    ∃ s, changeAntenna RF RD nPol nCh nAnt st a q f = some s ∧ SamePol nR nCh nAnt A nPol p nPol p st s := by
  obtain ⟨data, metaB⟩ := st
  have l1 := h.len
  simp only at l1
  obtain ⟨D1, d1, e1, h1, v1, w1⟩ := changeAntenna_spec (RF := RF) (RD := RD) h.holds metaB ha hq l1 f
  refine ⟨_, e1, h, ⟨holds_vals h1, l1⟩, ?_, ?_, ?_⟩
  · intro r c hr hc
    rw [vals, h1.vis r _ hr (chan_lt hc hp), w1 r c p hp hpq.symm]
  · intro c hc
    have := chan_lt (nPol := nPol) hc hp
    simp only
    rw [if_neg (by omega)]
  · intro a' ha'
    simp only
    rw [if_neg (anten_ne hpq ha' ha)]

/-- One iteration of the fitting loop of the polarisation. -/
theorem SamePol.fitStep {RF RD : ℚ → Fl} {maxLevel : Fl} {st st' : Block Cx × Buf Fl} (hc0 : 0 < nCh)
    (hA : AntennasBelow nR nAnt A) (h : SamePol nR nCh nAnt A nPol p nPol' p' st st') (hp : p < nPol) (hp' : p' < nPol') :
    ∃ s s' b, fitStep RF RD nPol nCh nAnt p maxLevel st = some (s, b) ∧
      fitStep RF RD nPol' nCh nAnt p' maxLevel st' = some (s', b) ∧ SamePol nR nCh nAnt A nPol p nPol' p' s s' := by
  have hal := h.alike hp hp'
  have hl := h.left.holds
  obtain ⟨bc, e1, hinc, hbc⟩ := bestChannel_spec (RD := RD) (maxLevel := maxLevel) hl hp
  obtain ⟨mx, e2, l2, -⟩ := antennaMax_spec hl hA hp
  obtain ⟨inc, e3, l3⟩ := antennaIncrease_some (RD := RD) (maxLevel := maxLevel) hl hA hp l2
  obtain ⟨ba, e4, hba⟩ := bestAntenna_spec l3
  unfold AF.fitStep
  rw [hal.bestChannel RD maxLevel, hal.antennaMax, e1, Option.bind_some, Option.bind_some, e2, Option.bind_some,
    Option.bind_some, hal.antennaIncrease RD maxLevel, e3, Option.bind_some, Option.bind_some, e4, Option.bind_some,
    Option.bind_some]
  by_cases hlt : Fl.lt bc.increase ba.2 = true
  · rw [if_pos hlt, if_pos hlt]
    have hba' : ba.1 < nAnt := by
      rcases hba with h | h
      · rw [h] at hlt
        simp only [hinc] at hlt
        exact absurd hlt (by simp)
      · exact h
    rw [Buf.rd_some (by omega), Option.bind_some, Option.bind_some]
    split
    · exact ⟨_, _, _, rfl, rfl, h⟩
    · obtain ⟨s, s', f1, f2, f3⟩ := h.changeAntenna (RF := RF) (RD := RD) hp hp' hba' (antennaFactor RD maxLevel (mx.get ba.1))
      rw [f1, f2]
      exact ⟨_, _, _, rfl, rfl, f3⟩
  · rw [if_neg hlt, if_neg hlt]
    split
    · exact ⟨_, _, _, rfl, rfl, h⟩
    · have hch : bc.channel < nCh := by
        rcases hbc with h | h
        · rw [h.1]; exact hc0
        · exact h.1
      obtain ⟨s, s', f1, f2, f3⟩ := h.changeChannel (RF := RF) (RD := RD) hp hp' hch bc.factor
      rw [f1, f2]
      exact ⟨_, _, _, rfl, rfl, f3⟩

/-- One iteration of the fitting loop of another polarisation. -/
theorem frame_fitStep {RF RD : ℚ → Fl} {maxLevel : Fl} {st : Block Cx × Buf Fl} (hc0 : 0 < nCh)
    (hA : AntennasBelow nR nAnt A) (h : Sized nR nCh nAnt nPol A st) (hp : p < nPol) {q : Nat} (hq : q < nPol) (hpq : q ≠ p) :
    ∃ s b, fitStep RF RD nPol nCh nAnt q maxLevel st = some (s, b) ∧ SamePol nR nCh nAnt A nPol p nPol p st s := by
  obtain ⟨data, metaB⟩ := st
  rcases fitStep_spec (RF := RF) (RD := RD) (maxLevel := maxLevel) hc0 h.holds hA hq metaB with
    e | ⟨a, M, ha, _, _, e⟩ | ⟨c, f, hcc, _, _, e⟩
  · exact ⟨_, _, e, .refl h⟩
  · obtain ⟨s, e', hs⟩ := frame_changeAntenna (RF := RF) (RD := RD) h hp hq hpq ha (antennaFactor RD maxLevel (.fin M))
    rw [e, e']
    exact ⟨_, _, rfl, hs⟩
  · obtain ⟨s, e', hs⟩ := frame_changeChannel (RF := RF) (RD := RD) h hp hq hpq hcc f
    rw [e, e']
    exact ⟨_, _, rfl, hs⟩

/-- The fitting loop of the polarisation: both run on, or both end in states that agree. -/
theorem SamePol.loop {RF RD : ℚ → Fl} {maxLevel : Fl} (hc0 : 0 < nCh) (hA : AntennasBelow nR nAnt A) (hp : p < nPol)
    (hp' : p' < nPol') (fuel : Nat) {st st' : Block Cx × Buf Fl} (h : SamePol nR nCh nAnt A nPol p nPol' p' st st') :
    (doWhile (AF.fitStep RF RD nPol nCh nAnt p maxLevel) fuel st = some none ∧
      doWhile (AF.fitStep RF RD nPol' nCh nAnt p' maxLevel) fuel st' = some none) ∨
    ∃ s s', doWhile (AF.fitStep RF RD nPol nCh nAnt p maxLevel) fuel st = some (some s) ∧
      doWhile (AF.fitStep RF RD nPol' nCh nAnt p' maxLevel) fuel st' = some (some s') ∧
      SamePol nR nCh nAnt A nPol p nPol' p' s s' := by
  induction fuel generalizing st st' with
  | zero => exact Or.inl ⟨rfl, rfl⟩
  | succ fuel ih =>
    obtain ⟨s, s', b, e1, e2, h1⟩ := h.fitStep (RF := RF) (RD := RD) (maxLevel := maxLevel) hc0 hA hp hp'
    rw [doWhile, doWhile, e1, e2, Option.bind_some, Option.bind_some]
    cases b with
    | true => exact ih h1
    | false => exact Or.inr ⟨s, s', rfl, rfl, h1⟩

/-- The fitting loop of another polarisation. -/
theorem frame_loop {RF RD : ℚ → Fl} {maxLevel : Fl} (hc0 : 0 < nCh) (hA : AntennasBelow nR nAnt A) (hp : p < nPol) {q : Nat}
    (hq : q < nPol) (hpq : q ≠ p) (fuel : Nat) {st : Block Cx × Buf Fl} (h : Sized nR nCh nAnt nPol A st) :
    doWhile (AF.fitStep RF RD nPol nCh nAnt q maxLevel) fuel st = some none ∨
    ∃ s, doWhile (AF.fitStep RF RD nPol nCh nAnt q maxLevel) fuel st = some (some s) ∧
      SamePol nR nCh nAnt A nPol p nPol p st s := by
  induction fuel generalizing st with
  | zero => exact Or.inl rfl
  | succ fuel ih =>
    obtain ⟨s, b, e1, h1⟩ := frame_fitStep (RF := RF) (RD := RD) (maxLevel := maxLevel) hc0 hA h hp hq hpq
    rw [doWhile, e1, Option.bind_some]
    cases b with
    | true =>
      rcases ih h1.right with e | ⟨s', e, h2⟩
      · exact Or.inl e
      · exact Or.inr ⟨s', e, h1.trans h2⟩
    | false => exact Or.inr ⟨s, rfl, h1⟩

/-- What the first stage of `fitToMaximum` leaves: every channel scaled by the factor of its own largest value. -/
theorem fitChannels_form {RF RD : ℚ → Fl} {maxLevel : Fl} {st : Block Cx × Buf Fl} (h : Sized nR nCh nAnt nPol A st) :
    ∃ s, fitChannels RF RD nPol nCh maxLevel st = some s ∧ Sized nR nCh nAnt nPol A s ∧ ∃ mx : Nat → Fl,
      (∀ i, i < nPol * nCh → crossMax st.1 i = some (mx i)) ∧
      (∀ r i, r < nR → i < nPol * nCh → vals s.1 r i = (vals st.1 r i).scale RD (firstFactor RD maxLevel (mx i))) ∧
      (∀ i, i < nPol * nCh → s.2.get i = Fl.cast RF (Fl.div RD (st.2.get i) (firstFactor RD maxLevel (mx i)))) ∧
      ∀ j, nPol * nCh ≤ j → s.2.get j = st.2.get j := by
  have hmx : ∀ i, ∃ m, i < nPol * nCh → crossMax st.1 i = some m := by
    intro i
    by_cases hi : i < nPol * nCh
    · obtain ⟨M, e, -⟩ := crossMax_spec h.holds hi
      exact ⟨_, fun _ => e⟩
    · exact ⟨.nan, fun hh => absurd hh hi⟩
  choose mx hmx using hmx
  obtain ⟨s, e, h1, h2, h3, h4, h5⟩ := forRange_inv (nPol * nCh) (fun i st => (AF.crossMax st.1 i).bind fun mx =>
      AF.changeChannel RF RD st i (firstFactor RD maxLevel mx)) st
    (fun k s => Sized nR nCh nAnt nPol A s ∧
      (∀ r i, r < nR → i < nPol * nCh → k ≤ i → vals s.1 r i = vals st.1 r i) ∧
      (∀ r i, r < nR → i < k → vals s.1 r i = (vals st.1 r i).scale RD (firstFactor RD maxLevel (mx i))) ∧
      (∀ i, i < k → s.2.get i = Fl.cast RF (Fl.div RD (st.2.get i) (firstFactor RD maxLevel (mx i)))) ∧
      ∀ j, k ≤ j → s.2.get j = st.2.get j)
    ⟨h, fun _ _ _ _ _ => rfl, fun _ _ _ hi => by omega, fun _ hi => by omega, fun _ _ => rfl⟩ (by
      rintro k ⟨d, m⟩ hk ⟨g1, g2, g3, g4, g5⟩
      simp only at g2 g3 g4 g5
      have l1 := g1.len
      simp only at l1
      have hx : AF.crossMax d k = some (mx k) := by
        rw [← hmx k hk]
        unfold AF.crossMax
        rw [h.holds.rows, g1.holds.rows]
        refine loop_congr (fun r s hr => ?_) _
        have a := (h.holds.ant r hr).trans (g1.holds.ant r hr).symm
        have a1 : (st.1.get r).antenna1 = (d.get r).antenna1 := congrArg Prod.fst a
        have a2 : (st.1.get r).antenna2 = (d.get r).antenna2 := congrArg Prod.snd a
        rw [Buf.rd_some (by rw [g1.holds.rows]; exact hr), Buf.rd_some (by rw [h.holds.rows]; exact hr), Option.bind_some,
          Option.bind_some, a1, a2, Buf.rd_some (by rw [g1.holds.len r hr]; exact hk),
          Buf.rd_some (by rw [h.holds.len r hr]; exact hk)]
        have := g2 r k hr hk (Nat.le_refl _)
        unfold vals at this
        rw [this]
      obtain ⟨D1, d1, e1, q1, q2, q3⟩ := changeChannel_spec (RF := RF) (RD := RD) g1.holds m hk (by omega)
        (firstFactor RD maxLevel (mx k))
      refine ⟨_, by rw [hx, Option.bind_some]; exact e1, ⟨holds_vals q1, l1⟩, ?_, ?_, ?_, ?_⟩
      · intro r i hr hi hki
        rw [vals, q1.vis r i hr hi, q3 r i (by omega)]
        exact g2 r i hr hi (by omega)
      · intro r i hr hi
        rw [vals, q1.vis r i hr (by omega)]
        by_cases he : i = k
        · subst he
          rw [q2 r hr, g2 r i hr hk (Nat.le_refl _)]
        · rw [q3 r i he]
          exact g3 r i hr (by omega)
      · intro i hi
        simp only
        by_cases he : i = k
        · subst he
          rw [if_pos rfl, g5 i (Nat.le_refl _)]
        · rw [if_neg he]
          exact g4 i (by omega)
      · intro j hj
        simp only
        rw [if_neg (by omega)]
        exact g5 j (by omega))
  exact ⟨s, e, h1, mx, hmx, fun r i hr hi => h3 r i hr hi, h4, h5⟩

/-- The first stage of `fitToMaximum`. -/
theorem SamePol.fitChannels {RF RD : ℚ → Fl} {maxLevel : Fl} {st st' : Block Cx × Buf Fl}
    (h : SamePol nR nCh nAnt A nPol p nPol' p' st st') (hp : p < nPol) (hp' : p' < nPol') :
    ∃ s s', fitChannels RF RD nPol nCh maxLevel st = some s ∧ fitChannels RF RD nPol' nCh maxLevel st' = some s' ∧
      SamePol nR nCh nAnt A nPol p nPol' p' s s' := by
  obtain ⟨s, e1, z1, mx, m1, v1, c1, o1⟩ := fitChannels_form (RF := RF) (RD := RD) (maxLevel := maxLevel) h.left
  obtain ⟨s', e2, z2, mx', m2, v2, c2, o2⟩ := fitChannels_form (RF := RF) (RD := RD) (maxLevel := maxLevel) h.right
  have hm : ∀ c, c < nCh → mx' (c * nPol' + p') = mx (c * nPol + p) := by
    intro c hc
    have := (h.alike hp hp').crossMax hc
    rw [m1 _ (chan_lt hc hp), m2 _ (chan_lt hc hp')] at this
    exact Option.some.inj this
  refine ⟨s, s', e1, e2, z1, z2, ?_, ?_, ?_⟩
  · intro r c hr hc
    rw [v1 r _ hr (chan_lt hc hp), v2 r _ hr (chan_lt hc hp'), hm c hc, h.val r c hr hc]
  · intro c hc
    rw [c1 _ (chan_lt hc hp), c2 _ (chan_lt hc hp'), hm c hc, h.chan c hc]
  · intro a ha
    rw [o1 _ (by omega), o2 _ (by omega)]
    exact h.anten a ha

/-- The loops of all polarisations, seen from one of them. -/
theorem fitPols_one {RF RD : ℚ → Fl} {maxLevel : Fl} (hc0 : 0 < nCh) (hA : AntennasBelow nR nAnt A) (hp : p < nPol) (fuel : Nat)
    {st : Block Cx × Buf Fl} (h : Sized nR nCh nAnt nPol A st) :
    ∀ k, k ≤ nPol → ∀ s, fitPols RF RD nPol nCh nAnt maxLevel fuel k st = some (some s) →
      (k ≤ p → SamePol nR nCh nAnt A nPol p nPol p st s) ∧
      (p < k → ∃ s1, doWhile (AF.fitStep RF RD nPol nCh nAnt p maxLevel) fuel st = some (some s1) ∧
        SamePol nR nCh nAnt A nPol p nPol p s1 s) := by
  intro k
  induction k with
  | zero =>
    intro _ s e
    cases e
    exact ⟨fun _ => .refl h, fun hk => by omega⟩
  | succ k ih =>
    intro hk s e
    rw [fitPols] at e
    cases e1 : fitPols RF RD nPol nCh nAnt maxLevel fuel k st with
    | none => rw [e1] at e; cases e
    | some o =>
      rw [e1, Option.bind_some] at e
      cases o with
      | none => cases e
      | some s0 =>
        obtain ⟨i1, i2⟩ := ih (by omega) s0 e1
        by_cases hkp : k = p
        · subst hkp
          refine ⟨fun hh => by omega, fun _ => ?_⟩
          rcases (i1 (Nat.le_refl _)).loop (RF := RF) (RD := RD) (maxLevel := maxLevel) hc0 hA hp hp fuel with
            ⟨_, f2⟩ | ⟨t, t', f1, f2, f3⟩
          · have e : doWhile (AF.fitStep RF RD nPol nCh nAnt k maxLevel) fuel s0 = some (some s) := e
            rw [f2] at e
            cases e
          · have e : doWhile (AF.fitStep RF RD nPol nCh nAnt k maxLevel) fuel s0 = some (some s) := e
            rw [f2] at e
            cases e
            exact ⟨t, f1, f3⟩
        · have e : doWhile (AF.fitStep RF RD nPol nCh nAnt k maxLevel) fuel s0 = some (some s) := e
          have hs0 : Sized nR nCh nAnt nPol A s0 := by
            rcases Nat.lt_or_ge p k with hlt | hge
            · obtain ⟨_, _, q⟩ := i2 hlt
              exact q.right
            · exact (i1 hge).right
          rcases frame_loop (RF := RF) (RD := RD) (maxLevel := maxLevel) hc0 hA hp (by omega) hkp fuel hs0 with
            f | ⟨t, f, g⟩
          · rw [f] at e
            cases e
          · rw [f] at e
            cases e
            refine ⟨fun hh => (i1 (by omega)).trans g, fun hh => ?_⟩
            obtain ⟨s1, q1, q2⟩ := i2 (by omega)
            exact ⟨s1, q1, q2.trans g⟩

/-- Normalisation of the antennas of the polarisation. -/
theorem SamePol.normalizeAntennas {RF RD : ℚ → Fl} {sq : Fl → Fl} {st st' : Block Cx × Buf Fl} (hA : AntennasBelow nR nAnt A)
    (h : SamePol nR nCh nAnt A nPol p nPol' p' st st') (hp : p < nPol) (hp' : p' < nPol') :
    ∃ s s', normalizeAntennas RF RD sq nPol nCh nAnt p st = some s ∧
      normalizeAntennas RF RD sq nPol' nCh nAnt p' st' = some s' ∧ SamePol nR nCh nAnt A nPol p nPol' p' s s' := by
  have hal := h.alike hp hp'
  obtain ⟨data, metaB⟩ := st
  obtain ⟨data', metaB'⟩ := st'
  have l1 := h.left.len
  have l2 := h.right.len
  simp only at l1 l2 hal
  obtain ⟨ant, ea, la⟩ := antennaRms_some (RD := RD) (sq := sq) h.left.holds hA hp
  simp only at ea
  have ea' : AF.antennaRms RD sq nPol' nCh nAnt p' data' = some ant := (hal.antennaRms RD sq).trans ea
  obtain ⟨D1, d1, m1, e1, h1, v1, w1, n1, c1, o1⟩ := normalizeAntennas_spec (RF := RF) h.left.holds hA hp la ea metaB l1
  obtain ⟨D2, d2, m2, e2, h2, v2, w2, n2, c2, o2⟩ := normalizeAntennas_spec (RF := RF) h.right.holds hA hp' la ea' metaB' l2
  refine ⟨_, _, e1, e2, ⟨holds_vals h1, by rw [n1]; exact l1⟩, ⟨holds_vals h2, by rw [n2]; exact l2⟩, ?_, ?_, ?_⟩
  · intro r c hr hc
    rw [vals, vals, h1.vis r _ hr (chan_lt hc hp), h2.vis r _ hr (chan_lt hc hp'), v1 r c hr hc, v2 r c hr hc, h.val r c hr hc]
  · intro c hc
    have := chan_lt (nPol := nPol) hc hp
    have := chan_lt (nPol := nPol') hc hp'
    simp only
    rw [o1 _ (fun a _ => by omega), o2 _ (fun a _ => by omega)]
    exact h.chan c hc
  · intro a ha
    simp only
    rw [c1 a ha, c2 a ha]

/-- Normalisation of the antennas of another polarisation. -/
theorem frame_normalizeAntennas {RF RD : ℚ → Fl} {sq : Fl → Fl} {st : Block Cx × Buf Fl} (hA : AntennasBelow nR nAnt A)
    (h : Sized nR nCh nAnt nPol A st) (hp : p < nPol) {q : Nat} (hq : q < nPol) (hpq : q ≠ p) :
    ∃ s, normalizeAntennas RF RD sq nPol nCh nAnt q st = some s ∧ SamePol nR nCh nAnt A nPol p nPol p st s := by
  obtain ⟨data, metaB⟩ := st
  have l1 := h.len
  simp only at l1
  obtain ⟨ant, ea, la⟩ := antennaRms_some (RD := RD) (sq := sq) h.holds hA hq
  obtain ⟨D1, d1, m1, e1, h1, v1, w1, n1, c1, o1⟩ := normalizeAntennas_spec (RF := RF) h.holds hA hq la ea metaB l1
  refine ⟨_, e1, h, ⟨holds_vals h1, by rw [n1]; exact l1⟩, ?_, ?_, ?_⟩
  · intro r c hr hc
    rw [vals, h1.vis r _ hr (chan_lt hc hp), w1 r c p hp hpq.symm]
  · intro c hc
    have := chan_lt (nPol := nPol) hc hp
    simp only
    rw [o1 _ (fun a _ => by omega)]
  · intro a ha
    simp only
    rw [o1 _ (fun a' ha' => anten_ne hpq ha ha')]

/-- Normalisation of the antennas of all polarisations, seen from one of them. -/
theorem antennas_one {RF RD : ℚ → Fl} {sq : Fl → Fl} (hA : AntennasBelow nR nAnt A) (hp : p < nPol) {st : Block Cx × Buf Fl}
    (h : Sized nR nCh nAnt nPol A st) :
    ∃ s1 s, AF.normalizeAntennas RF RD sq nPol nCh nAnt p st = some s1 ∧
      forRange nPol (fun p st => AF.normalizeAntennas RF RD sq nPol nCh nAnt p st) st = some s ∧
      SamePol nR nCh nAnt A nPol p nPol p s1 s := by
  obtain ⟨s1, _, e1, _, h1⟩ := (SamePol.refl (p := p) h).normalizeAntennas (RF := RF) (RD := RD) (sq := sq) hA hp hp
  obtain ⟨s, e, i1, i2⟩ := forRange_inv nPol (fun p st => AF.normalizeAntennas RF RD sq nPol nCh nAnt p st) st
    (fun k s => (k ≤ p → SamePol nR nCh nAnt A nPol p nPol p st s) ∧ (p < k → SamePol nR nCh nAnt A nPol p nPol p s1 s))
    ⟨fun _ => .refl h, fun hk => by omega⟩ (by
      rintro k s hk ⟨i1, i2⟩
      by_cases hkp : k = p
      · subst hkp
        obtain ⟨t, t', f1, f2, f3⟩ := (i1 (Nat.le_refl _)).normalizeAntennas (RF := RF) (RD := RD) (sq := sq) hA hp hp
        rw [e1] at f1
        cases f1
        exact ⟨t', f2, fun hh => by omega, fun _ => f3⟩
      · have hs : Sized nR nCh nAnt nPol A s := by
          rcases Nat.lt_or_ge p k with hlt | hge
          · exact (i2 hlt).right
          · exact (i1 hge).right
        obtain ⟨t, f, g⟩ := frame_normalizeAntennas (RF := RF) (RD := RD) (sq := sq) hA hs hp hk hkp
        exact ⟨t, f, fun hh => (i1 (by omega)).trans g, fun hh => (i2 (by omega)).trans g⟩)
  exact ⟨s1, s, e1, e, i2 hp⟩

theorem measFold_congr {RD : ℚ → Fl} {v w : Nat → Cx} {k : Nat} (h : ∀ r, r < k → w r = v r) :
    measFold RD w k = measFold RD v k := by
  induction k with
  | zero => rfl
  | succ k ih =>
    unfold measFold
    rw [ih (fun r hr => h r (by omega)), h k (by omega)]

/-- The normalisation. -/
theorem SamePol.normalize {RF RD : ℚ → Fl} {sq : Fl → Fl} (hA : AntennasBelow nR nAnt A) (hR : 0 < nR) (hp : p < nPol)
    (hp' : p' < nPol') (h : Holds nR (nPol * nCh) A D data) (h' : Holds nR (nPol' * nCh) A D' data')
    (hD : ∀ r c, r < nR → c < nCh → D' r (c * nPol' + p') = D r (c * nPol + p)) (metaB metaB' : Buf Fl)
    (hb : nPol * nCh + nAnt * nPol ≤ metaB.len) (hb' : nPol' * nCh + nAnt * nPol' ≤ metaB'.len) :
    ∃ s s', normalize RF RD sq nPol nCh nAnt (data, metaB) = some s ∧
      normalize RF RD sq nPol' nCh nAnt (data', metaB') = some s' ∧ SamePol nR nCh nAnt A nPol p nPol' p' s s' := by
  obtain ⟨meas, e1, l1, g1⟩ := channelMeas_spec (RD := RD) h
  obtain ⟨meas', e1', l1', g1'⟩ := channelMeas_spec (RD := RD) h'
  obtain ⟨D1, d1, m1, e2, h1, v1, n1, c1, o1⟩ := normalizeChannels_spec (RF := RF) (RD := RD) (sq := sq) h meas l1 metaB (by omega)
  obtain ⟨D2, d2, m2, e2', h2, v2, n2, c2, o2⟩ := normalizeChannels_spec (RF := RF) (RD := RD) (sq := sq) h' meas' l1' metaB'
    (by omega)
  have hmeas : ∀ c, c < nCh → meas'.get (c * nPol' + p') = meas.get (c * nPol + p) := by
    intro c hc
    rw [g1 _ (chan_lt hc hp), g1' _ (chan_lt hc hp')]
    exact measFold_congr fun r hr => hD r c hr hc
  have z1 : Sized nR nCh nAnt nPol A (d1, m1) := ⟨holds_vals h1, by rw [n1]; exact hb⟩
  have z2 : Sized nR nCh nAnt nPol' A (d2, m2) := ⟨holds_vals h2, by rw [n2]; exact hb'⟩
  obtain ⟨t, s, f1, f2, f3⟩ := antennas_one (RF := RF) (RD := RD) (sq := sq) hA hp z1
  obtain ⟨t', s', f1', f2', f3'⟩ := antennas_one (RF := RF) (RD := RD) (sq := sq) hA hp' z2
  refine ⟨s, s', ?_, ?_, ?_⟩
  · unfold AF.normalize
    rw [e1, Option.bind_some, e2, Option.bind_some]
    exact f2
  · unfold AF.normalize
    rw [e1', Option.bind_some, e2', Option.bind_some]
    exact f2'
  · -- the antenna factors are overwritten; before that only the channel factors agree
    have hal : AlikePol nCh nPol p nPol' p' d1 d2 := by
      refine ⟨by rw [h1.rows, h2.rows], fun r hr => ?_, fun r hr => ?_, fun r c hr hc => ?_⟩ <;> rw [h1.rows] at hr
      · exact congrArg Prod.fst ((h2.ant r hr).trans (h1.ant r hr).symm)
      · exact congrArg Prod.snd ((h2.ant r hr).trans (h1.ant r hr).symm)
      · rw [Buf.rd_some (by rw [h2.len r hr]; exact chan_lt hc hp'), Buf.rd_some (by rw [h1.len r hr]; exact chan_lt hc hp),
          h1.vis r _ hr (chan_lt hc hp), h2.vis r _ hr (chan_lt hc hp'), v1 r _ hr (chan_lt hc hp), v2 r _ hr (chan_lt hc hp'),
          hmeas c hc, hD r c hr hc]
    obtain ⟨ant, ea, la⟩ := antennaRms_some (RD := RD) (sq := sq) h1 hA hp
    have ea' : AF.antennaRms RD sq nPol' nCh nAnt p' d2 = some ant := (hal.antennaRms RD sq).trans ea
    obtain ⟨E1, a1, b1, x1, k1, y1, -, q1, r1, u1⟩ := normalizeAntennas_spec (RF := RF) h1 hA hp la ea m1 (by omega)
    obtain ⟨E2, a2, b2, x2, k2, y2, -, q2, r2, u2⟩ := normalizeAntennas_spec (RF := RF) h2 hA hp' la ea' m2 (by omega)
    rw [f1] at x1
    rw [f1'] at x2
    cases x1
    cases x2
    refine (f3.symm.trans (nPol' := nPol) (p' := p) ?_).trans f3'
    refine ⟨f3.left, f3'.left, ?_, ?_, ?_⟩
    · intro r c hr hc
      simp only [vals]
      rw [k1.vis r _ hr (chan_lt hc hp), k2.vis r _ hr (chan_lt hc hp'), y1 r c hr hc, y2 r c hr hc,
        v1 r _ hr (chan_lt hc hp), v2 r _ hr (chan_lt hc hp'), hmeas c hc, hD r c hr hc]
    · intro c hc
      have := chan_lt (nPol := nPol) hc hp
      have := chan_lt (nPol := nPol') hc hp'
      simp only
      rw [u1 _ (fun a _ => by omega), u2 _ (fun a _ => by omega), c1 _ hR (chan_lt hc hp), c2 _ hR (chan_lt hc hp'), hmeas c hc]
    · intro a ha
      simp only
      rw [r1 a ha, r2 a ha]

/-- Normalisation and fitting. If the block with the polarisation `p` among others is fitted, the loop of `p'` ends too. -/
theorem fitted_one {RF RD : ℚ → Fl} {sq : Fl → Fl} {maxLevel : Fl} (hc0 : 0 < nCh) (hA : AntennasBelow nR nAnt A) (hR : 0 < nR)
    (hp : p < nPol) (hp' : p' < nPol') (h : Holds nR (nPol * nCh) A D data) (h' : Holds nR (nPol' * nCh) A D' data')
    (hD : ∀ r c, r < nR → c < nCh → D' r (c * nPol' + p') = D r (c * nPol + p)) (metaB metaB' : Buf Fl)
    (hb : nPol * nCh + nAnt * nPol ≤ metaB.len) (hb' : nPol' * nCh + nAnt * nPol' ≤ metaB'.len) (fuel : Nat) :
    ∃ n n' c c', AF.normalize RF RD sq nPol nCh nAnt (data, metaB) = some n ∧
      AF.normalize RF RD sq nPol' nCh nAnt (data', metaB') = some n' ∧
      AF.fitChannels RF RD nPol nCh maxLevel n = some c ∧ AF.fitChannels RF RD nPol' nCh maxLevel n' = some c' ∧
      Sized nR nCh nAnt nPol A c ∧ Sized nR nCh nAnt nPol' A c' ∧
      ∀ s, fitPols RF RD nPol nCh nAnt maxLevel fuel nPol c = some (some s) →
        (∃ t', doWhile (AF.fitStep RF RD nPol' nCh nAnt p' maxLevel) fuel c' = some (some t')) ∧
        ∀ s', fitPols RF RD nPol' nCh nAnt maxLevel fuel nPol' c' = some (some s') →
          SamePol nR nCh nAnt A nPol p nPol' p' s s' := by
  obtain ⟨n, n', e1, e1', g1⟩ := SamePol.normalize (RF := RF) (RD := RD) (sq := sq) hA hR hp hp' h h' hD metaB metaB' hb hb'
  obtain ⟨c, c', e2, e2', g2⟩ := g1.fitChannels (RF := RF) (RD := RD) (maxLevel := maxLevel) hp hp'
  refine ⟨n, n', c, c', e1, e1', e2, e2', g2.left, g2.right, fun s es => ?_⟩
  obtain ⟨t, et, gt⟩ := (fitPols_one hc0 hA hp fuel g2.left nPol (Nat.le_refl _) s es).2 hp
  rcases g2.loop (RF := RF) (RD := RD) (maxLevel := maxLevel) hc0 hA hp hp' fuel with ⟨f1, _⟩ | ⟨u, u', f1, f2, f3⟩
  · rw [f1] at et
    cases et
  · rw [f1] at et
    cases et
    refine ⟨⟨u', f2⟩, fun s' es' => ?_⟩
    obtain ⟨t', et', gt'⟩ := (fitPols_one hc0 hA hp' fuel g2.right nPol' (Nat.le_refl _) s' es').2 hp'
    rw [f2] at et'
    cases et'
    exact (gt.symm.trans f3).trans gt'

/-- If the loop of every polarisation ends when it starts first, then the loops end one after the other. -/
theorem fitPols_ends {RF RD : ℚ → Fl} {maxLevel : Fl} (hc0 : 0 < nCh) (hA : AntennasBelow nR nAnt A) (fuel : Nat)
    {st : Block Cx × Buf Fl} (h : Sized nR nCh nAnt nPol A st)
    (he : ∀ q, q < nPol → ∃ t, doWhile (AF.fitStep RF RD nPol nCh nAnt q maxLevel) fuel st = some (some t)) :
    ∀ k, k ≤ nPol → ∃ s, fitPols RF RD nPol nCh nAnt maxLevel fuel k st = some (some s) := by
  intro k
  induction k with
  | zero => exact fun _ => ⟨st, rfl⟩
  | succ k ih =>
    intro hk
    obtain ⟨s0, e0⟩ := ih (by omega)
    have h0 := (fitPols_one (p := k) hc0 hA (by omega) fuel h k (by omega) s0 e0).1 (Nat.le_refl _)
    rw [fitPols, e0, Option.bind_some]
    obtain ⟨t, et⟩ := he k (by omega)
    rcases h0.loop (RF := RF) (RD := RD) (maxLevel := maxLevel) hc0 hA (by omega) (by omega) fuel with
      ⟨f1, _⟩ | ⟨u, u', _, f2, _⟩
    · rw [f1] at et
      cases et
    · exact ⟨u', f2⟩

/-- **C138** Two blocks of any numbers of polarisations with the same rows, antennas and channels, and the same values in
polarisation `p` of the one and `p'` of the other. If both are encoded with the same dither values for these polarisations,
the channel factors, antenna factors and symbols of these polarisations are the same. -/
theorem encode_polarisation {RF RD : ℚ → Fl} {sq : Fl → Fl} {enc : Fl → Nat → Option Nat} {q : Nat} (hq : Total enc q)
    {maxLevel : Fl} (hc0 : 0 < nCh) (hA : AntennasBelow nR nAnt A) (hR : 0 < nR) (hp : p < nPol) (hp' : p' < nPol')
    (h : Holds nR (nPol * nCh) A D data) (h' : Holds nR (nPol' * nCh) A D' data')
    (hD : ∀ r c, r < nR → c < nCh → D' r (c * nPol' + p') = D r (c * nPol + p)) {dith dith' : Nat → Nat}
    (hd : ∀ r c k, r < nR → c < nCh → k < 2 → dith' ((r * (nPol' * nCh) + (c * nPol' + p')) * 2 + k) =
      dith ((r * (nPol * nCh) + (c * nPol + p)) * 2 + k)) (fuel : Nat) {metaB metaB' : Buf Fl} {sym sym' : Buf Nat}
    (hb : nPol * nCh + nAnt * nPol ≤ metaB.len) (hb' : nPol' * nCh + nAnt * nPol' ≤ metaB'.len)
    (hs : nR * (nPol * nCh) * 2 ≤ sym.len) (hs' : nR * (nPol' * nCh) * 2 ≤ sym'.len) {m m' : Buf Fl} {s s' : Buf Nat}
    (e : encode RF RD sq enc maxLevel nPol nCh nAnt dith fuel data metaB sym = some (some (m, s)))
    (e' : encode RF RD sq enc maxLevel nPol' nCh nAnt dith' fuel data' metaB' sym' = some (some (m', s'))) :
    (∀ c, c < nCh → m'.get (c * nPol' + p') = m.get (c * nPol + p)) ∧
    (∀ a, a < nAnt → m'.get (nPol' * nCh + (nAnt * p' + a)) = m.get (nPol * nCh + (nAnt * p + a))) ∧
    ∀ r c k, r < nR → c < nCh → k < 2 → s'.get ((r * (nPol' * nCh) + (c * nPol' + p')) * 2 + k) =
      s.get ((r * (nPol * nCh) + (c * nPol + p)) * 2 + k) := by
  obtain ⟨n, n', c, c', e1, e1', e2, e2', z, z', g⟩ := fitted_one (RF := RF) (RD := RD) (sq := sq) (maxLevel := maxLevel) hc0 hA
    hR hp hp' h h' hD metaB metaB' hb hb' fuel
  unfold encode fitToMaximum at e e'
  rw [e1, Option.bind_some, e2, Option.bind_some] at e
  rw [e1', Option.bind_some, e2', Option.bind_some] at e'
  cases ef : fitPols RF RD nPol nCh nAnt maxLevel fuel nPol c with
  | none => rw [ef] at e; cases e
  | some o =>
    cases o with
    | none => rw [ef] at e; cases e
    | some t =>
      cases ef' : fitPols RF RD nPol' nCh nAnt maxLevel fuel nPol' c' with
      | none => rw [ef'] at e'; cases e'
      | some o' =>
        cases o' with
        | none => rw [ef'] at e'; cases e'
        | some t' =>
          have gs := (g t ef).2 t' ef'
          rw [ef, Option.bind_some] at e
          rw [ef', Option.bind_some] at e'
          simp only at e e'
          obtain ⟨u, u1, -, -, -, u2⟩ := quantise_total (RF := RF) hq (dith := dith) gs.left.holds sym hs
          obtain ⟨u', u1', -, -, -, u2'⟩ := quantise_total (RF := RF) hq (dith := dith') gs.right.holds sym' hs'
          rw [u1] at e
          rw [u1'] at e'
          cases e
          cases e'
          refine ⟨gs.chan, gs.anten, fun r c k hr hc hk => ?_⟩
          have v := u2 r _ hr (chan_lt hc hp)
          have v' := u2' r _ hr (chan_lt hc hp')
          rw [gs.val r c hr hc] at v'
          have d0 := hd r c 0 hr hc (by decide)
          rw [Nat.add_zero, Nat.add_zero] at d0
          obtain rfl | rfl : k = 0 ∨ k = 1 := by omega
          · rw [d0, v.1] at v'
            exact (Option.some.inj v'.1).symm
          · rw [hd r c 1 hr hc (by decide), v.2] at v'
            exact (Option.some.inj v'.2).symm

/-- Encoding ends exactly if the loops end. -/
theorem encode_ends_iff {RF RD : ℚ → Fl} {sq : Fl → Fl} {enc : Fl → Nat → Option Nat} {q : Nat} (hq : Total enc q)
    {maxLevel : Fl} {dith : Nat → Nat} {fuel : Nat} {metaB : Buf Fl} {sym : Buf Nat} (hs : nR * (nPol * nCh) * 2 ≤ sym.len)
    {n c : Block Cx × Buf Fl} (e1 : AF.normalize RF RD sq nPol nCh nAnt (data, metaB) = some n)
    (e2 : AF.fitChannels RF RD nPol nCh maxLevel n = some c)
    (hz : ∀ t, fitPols RF RD nPol nCh nAnt maxLevel fuel nPol c = some (some t) → Sized nR nCh nAnt nPol A t) :
    (∃ m s, encode RF RD sq enc maxLevel nPol nCh nAnt dith fuel data metaB sym = some (some (m, s))) ↔
      ∃ t, fitPols RF RD nPol nCh nAnt maxLevel fuel nPol c = some (some t) := by
  unfold encode fitToMaximum
  rw [e1, Option.bind_some, e2, Option.bind_some]
  constructor
  · rintro ⟨m, s, e⟩
    cases ef : fitPols RF RD nPol nCh nAnt maxLevel fuel nPol c with
    | none => rw [ef] at e; cases e
    | some o =>
      cases o with
      | none => rw [ef] at e; cases e
      | some t => exact ⟨t, rfl⟩
  · rintro ⟨t, ef⟩
    rw [ef, Option.bind_some]
    simp only
    obtain ⟨u, u1, -⟩ := quantise_total (RF := RF) hq (dith := dith) (hz t ef).holds sym hs
    rw [u1]
    exact ⟨_, _, rfl⟩

theorem sized_fitPols {RF RD : ℚ → Fl} {maxLevel : Fl} (hc0 : 0 < nCh) (hA : AntennasBelow nR nAnt A) (hp : p < nPol) (fuel : Nat)
    {c : Block Cx × Buf Fl} (h : Sized nR nCh nAnt nPol A c) {t : Block Cx × Buf Fl}
    (e : fitPols RF RD nPol nCh nAnt maxLevel fuel nPol c = some (some t)) : Sized nR nCh nAnt nPol A t := by
  obtain ⟨_, _, g⟩ := (fitPols_one (p := p) hc0 hA hp fuel h nPol (Nat.le_refl _) t e).2 hp
  exact g.right

/-- **C138** The encoding of a block ends exactly if the encoding of every one of its polarisations, taken as a block of its
own, ends. -/
theorem encode_ends_each {RF RD : ℚ → Fl} {sq : Fl → Fl} {enc : Fl → Nat → Option Nat} {q : Nat} (hq : Total enc q)
    {maxLevel : Fl} (hc0 : 0 < nCh) (hA : AntennasBelow nR nAnt A) (hR : 0 < nR) (hp0 : 0 < nPol)
    (h : Holds nR (nPol * nCh) A D data) {single : Nat → Block Cx}
    (h' : ∀ p, p < nPol → Holds nR (1 * nCh) A (fun r c => D r (c * nPol + p)) (single p)) {dith : Nat → Nat}
    {dith' : Nat → Nat → Nat} (fuel : Nat) {metaB metaB' : Buf Fl} {sym sym' : Buf Nat}
    (hb : nPol * nCh + nAnt * nPol ≤ metaB.len) (hb' : 1 * nCh + nAnt * 1 ≤ metaB'.len)
    (hs : nR * (nPol * nCh) * 2 ≤ sym.len) (hs' : nR * (1 * nCh) * 2 ≤ sym'.len) :
    (∃ m s, encode RF RD sq enc maxLevel nPol nCh nAnt dith fuel data metaB sym = some (some (m, s))) ↔
      ∀ p, p < nPol → ∃ m s, encode RF RD sq enc maxLevel 1 nCh nAnt (dith' p) fuel (single p) metaB' sym' = some (some (m, s)) := by
  have hD : ∀ p r c, r < nR → c < nCh → (fun r c => D r (c * nPol + p)) r (c * 1 + 0) = D r (c * nPol + p) := by
    intro p r c _ _
    simp
  constructor
  · rintro he p hp
    obtain ⟨n, n', c, c', e1, e1', e2, e2', z, z', g⟩ := fitted_one (RF := RF) (RD := RD) (sq := sq) (maxLevel := maxLevel) hc0
      hA hR hp (Nat.one_pos) h (h' p hp) (hD p) metaB metaB' hb hb' fuel
    obtain ⟨t, et⟩ := (encode_ends_iff (A := A) hq hs e1 e2 (fun t et => sized_fitPols hc0 hA hp fuel z et)).mp he
    obtain ⟨t', et'⟩ := (g t et).1
    refine (encode_ends_iff (A := A) hq hs' e1' e2' (fun t et => sized_fitPols hc0 hA Nat.one_pos fuel z' et)).mpr ⟨t', ?_⟩
    rw [fitPols, fitPols, Option.bind_some]
    exact et'
  · intro he
    obtain ⟨n, n', c, c', e1, e1', e2, e2', z, z', g⟩ := fitted_one (RF := RF) (RD := RD) (sq := sq) (maxLevel := maxLevel) hc0
      hA hR hp0 hp0 h h (fun _ _ _ _ => rfl) metaB metaB hb hb fuel
    refine (encode_ends_iff (A := A) hq hs e1 e2 (fun t et => sized_fitPols hc0 hA hp0 fuel z et)).mpr ?_
    refine fitPols_ends hc0 hA fuel z (fun p hp => ?_) nPol (Nat.le_refl _)
    obtain ⟨n1, n1', c1, c1', f1, f1', f2, f2', y, y', g'⟩ := fitted_one (RF := RF) (RD := RD) (sq := sq) (maxLevel := maxLevel)
      hc0 hA hR (Nat.one_pos) hp (h' p hp) h (fun r c hr hc => (hD p r c hr hc).symm) metaB' metaB hb' hb fuel
    rw [e1] at f1'
    cases f1'
    rw [e2] at f2'
    cases f2'
    obtain ⟨t, et⟩ := (encode_ends_iff (A := A) hq hs' f1 f2 (fun t et => sized_fitPols hc0 hA Nat.one_pos fuel y et)).mp
      (he p hp)
    exact (g' t et).1

end Dysco.AF
