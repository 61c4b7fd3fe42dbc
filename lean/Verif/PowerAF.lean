import Verif.Power
import Verif.AFPols
import Verif.AFRange

/-!
# C135, antenna-frequency normalisation

Multiplying the values of one channel and polarisation by a power of two, another power for every channel and polarisation,
leaves all symbols and all antenna factors as they are. Only the channel factors change.
-/

namespace Dysco.AF
open TimeBlock Stochastic

variable {nR nPol nCh nAnt : Nat} {A : Nat → Nat × Nat} {D D' : Nat → Nat → Cx} {data data' : Block Cx} {k : Nat}
  {Q : Nat → Fl → Fl → Prop}

/-! ## Two blocks with the same values and different channel factors -/

/-- Two states with the same values, with the same antenna factors in the first `k` polarisations, and with channel factors
that are related by `Q`. Not in the code. -/
structure Twin (nR nCh nAnt nPol : Nat) (A : Nat → Nat × Nat) (Q : Nat → Fl → Fl → Prop) (k : Nat)
    (st st' : Block Cx × Buf Fl) : Prop where
  left : Sized nR nCh nAnt nPol A st
  right : Sized nR nCh nAnt nPol A st'
  val : ∀ r i, r < nR → i < nPol * nCh → vals st'.1 r i = vals st.1 r i
  chan : ∀ i, i < nPol * nCh → Q i (st.2.get i) (st'.2.get i)
  anten : ∀ p a, p < k → a < nAnt → st'.2.get (nPol * nCh + (nAnt * p + a)) = st.2.get (nPol * nCh + (nAnt * p + a))

/-- The relation stays when both factors are divided by the same number, not less than one, and rounded. Not in the code. -/
def Stable (RF RD : ℚ → Fl) (n : Nat) (Q : Nat → Fl → Fl → Prop) : Prop :=
  ∀ i m m' f, i < n → Fl.lt f (.fin 1) = false → Q i m m' → Q i (Fl.cast RF (Fl.div RD m f)) (Fl.cast RF (Fl.div RD m' f))

theorem Twin.alike {st st' : Block Cx × Buf Fl} (h : Twin nR nCh nAnt nPol A Q k st st') {p : Nat} (hp : p < nPol) :
    AlikePol nCh nPol p nPol p st.1 st'.1 := by
  have hl := h.left.holds
  have hr' := h.right.holds
  refine ⟨by rw [hl.rows, hr'.rows], fun r hr => ?_, fun r hr => ?_, fun r c hr hc => ?_⟩ <;> rw [hl.rows] at hr
  · exact congrArg Prod.fst ((hr'.ant r hr).trans (hl.ant r hr).symm)
  · exact congrArg Prod.snd ((hr'.ant r hr).trans (hl.ant r hr).symm)
  · rw [Buf.rd_some (by rw [hr'.len r hr]; exact chan_lt hc hp), Buf.rd_some (by rw [hl.len r hr]; exact chan_lt hc hp)]
    exact congrArg some (h.val r _ hr (chan_lt hc hp))

theorem index_split (hi : k < nPol * nCh) : k % nPol < nPol ∧ k / nPol < nCh ∧ k / nPol * nPol + k % nPol = k := by
  have hp : 0 < nPol := Nat.pos_of_ne_zero (by rintro rfl; simp at hi)
  exact ⟨Nat.mod_lt _ hp, Nat.div_lt_of_lt_mul hi, Nat.div_add_mod' k nPol⟩

theorem Twin.crossMax {st st' : Block Cx × Buf Fl} (h : Twin nR nCh nAnt nPol A Q k st st') {i : Nat} (hi : i < nPol * nCh) :
    crossMax st'.1 i = crossMax st.1 i := by
  obtain ⟨h1, h2, h3⟩ := index_split hi
  have := (h.alike h1).crossMax h2
  rwa [h3] at this

theorem Twin.changeChannel {RF RD : ℚ → Fl} (hQ : Stable RF RD (nPol * nCh) Q) {st st' : Block Cx × Buf Fl} {K : Nat}
    (h : Twin nR nCh nAnt nPol A Q K st st') {i : Nat} (hi : i < nPol * nCh) {f : Fl}
    (hf : Fl.lt f (.fin 1) = false) :
    ∃ s s', changeChannel RF RD st i f = some s ∧ changeChannel RF RD st' i f = some s' ∧
      Twin nR nCh nAnt nPol A Q K s s' := by
  obtain ⟨data, metaB⟩ := st
  obtain ⟨data', metaB'⟩ := st'
  have l1 := h.left.len
  have l2 := h.right.len
  simp only at l1 l2
  obtain ⟨D1, d1, e1, h1, v1, w1⟩ := changeChannel_spec (RF := RF) (RD := RD) h.left.holds metaB hi (by omega) f
  obtain ⟨D2, d2, e2, h2, v2, w2⟩ := changeChannel_spec (RF := RF) (RD := RD) h.right.holds metaB' hi (by omega) f
  refine ⟨_, _, e1, e2, ⟨⟨holds_vals h1, l1⟩, ⟨holds_vals h2, l2⟩, ?_, ?_, ?_⟩⟩
  · intro r c hr hc
    rw [vals, vals, h1.vis r _ hr hc, h2.vis r _ hr hc]
    by_cases he : c = i
    · subst he
      rw [v1 r hr, v2 r hr, h.val r c hr hc]
    · rw [w1 r _ he, w2 r _ he]
      exact h.val r c hr hc
  · intro c hc
    simp only
    by_cases he : c = i
    · subst he
      rw [if_pos rfl, if_pos rfl]
      exact hQ _ _ _ _ hc hf (h.chan c hc)
    · rw [if_neg he, if_neg he]
      exact h.chan c hc
  · intro p a hp ha
    simp only
    rw [if_neg (by omega), if_neg (by omega)]
    exact h.anten p a hp ha

theorem Twin.changeAntenna {RF RD : ℚ → Fl} {st st' : Block Cx × Buf Fl} (h : Twin nR nCh nAnt nPol A Q nPol st st') {p : Nat}
    (hp : p < nPol) {a : Nat} (ha : a < nAnt) (f : Fl) :
    ∃ s s', changeAntenna RF RD nPol nCh nAnt st a p f = some s ∧ changeAntenna RF RD nPol nCh nAnt st' a p f = some s' ∧
      Twin nR nCh nAnt nPol A Q nPol s s' := by
  obtain ⟨data, metaB⟩ := st
  obtain ⟨data', metaB'⟩ := st'
  have l1 := h.left.len
  have l2 := h.right.len
  simp only at l1 l2
  obtain ⟨D1, d1, e1, h1, v1, w1⟩ := changeAntenna_spec (RF := RF) (RD := RD) h.left.holds metaB ha hp l1 f
  obtain ⟨D2, d2, e2, h2, v2, w2⟩ := changeAntenna_spec (RF := RF) (RD := RD) h.right.holds metaB' ha hp l2 f
  refine ⟨_, _, e1, e2, ⟨⟨holds_vals h1, l1⟩, ⟨holds_vals h2, l2⟩, ?_, ?_, ?_⟩⟩
  · intro r i hr hi
    obtain ⟨i1, i2, i3⟩ := index_split hi
    rw [vals, vals, h1.vis r _ hr hi, h2.vis r _ hr hi, ← i3]
    by_cases he : i % nPol = p
    · rw [he, v1 r _ hr i2, v2 r _ hr i2, h.val r _ hr (chan_lt i2 hp)]
    · rw [w1 r _ _ i1 he, w2 r _ _ i1 he]
      exact h.val r _ hr (by rw [i3]; exact hi)
  · intro i hi
    simp only
    rw [if_neg (by omega), if_neg (by omega)]
    exact h.chan i hi
  · intro q b hq hb
    simp only
    rw [h.anten q b hq hb, h.anten p a hp ha]

theorem Twin.fitStep {RF RD : ℚ → Fl} (hQ : Stable RF RD (nPol * nCh) Q) {maxLevel : Fl} {st st' : Block Cx × Buf Fl}
    (hc0 : 0 < nCh) (hA : AntennasBelow nR nAnt A) (h : Twin nR nCh nAnt nPol A Q nPol st st') {p : Nat} (hp : p < nPol) :
    ∃ s s' b, fitStep RF RD nPol nCh nAnt p maxLevel st = some (s, b) ∧
      fitStep RF RD nPol nCh nAnt p maxLevel st' = some (s', b) ∧ Twin nR nCh nAnt nPol A Q nPol s s' := by
  have hal := h.alike hp
  have hl := h.left.holds
  obtain ⟨bc, e1, hinc, hbc⟩ := bestChannel_spec (RD := RD) (maxLevel := maxLevel) hl hp
  obtain ⟨mx, e2, l2, -⟩ := antennaMax_spec hl hA hp
  obtain ⟨inc, e3, l3⟩ := antennaIncrease_some (RD := RD) (maxLevel := maxLevel) hl hA hp l2
  obtain ⟨ba, e4, hba⟩ := bestAntenna_spec l3
  unfold AF.fitStep
  rw [hal.bestChannel RD maxLevel, hal.antennaMax, e1, Option.bind_some, Option.bind_some, e2, Option.bind_some,
    Option.bind_some, hal.antennaIncrease RD maxLevel, e3, Option.bind_some, Option.bind_some, e4, Option.bind_some,
    Option.bind_some]
  by_cases hlt : Fl.lt bc.increase ba.2 = true
  · rw [if_pos hlt, if_pos hlt]
    have hba' : ba.1 < nAnt := by
      rcases hba with h | h
      · rw [h] at hlt
        simp only [hinc] at hlt
        exact absurd hlt (by simp)
      · exact h
    rw [Buf.rd_some (by omega), Option.bind_some, Option.bind_some]
    split
    · exact ⟨_, _, _, rfl, rfl, h⟩
    · obtain ⟨s, s', f1, f2, f3⟩ := h.changeAntenna (RF := RF) (RD := RD) hp hba' (antennaFactor RD maxLevel (mx.get ba.1))
      rw [f1, f2]
      exact ⟨_, _, _, rfl, rfl, f3⟩
  · rw [if_neg hlt, if_neg hlt]
    split
    · exact ⟨_, _, _, rfl, rfl, h⟩
    · rename_i hlt1
      have hch : bc.channel < nCh := by
        rcases hbc with h | h
        · rw [h.1]; exact hc0
        · exact h.1
      obtain ⟨s, s', f1, f2, f3⟩ := h.changeChannel hQ (chan_lt hch hp) (Bool.eq_false_iff.2 hlt1)
      rw [f1, f2]
      exact ⟨_, _, _, rfl, rfl, f3⟩

theorem Twin.loop {RF RD : ℚ → Fl} (hQ : Stable RF RD (nPol * nCh) Q) {maxLevel : Fl} (hc0 : 0 < nCh)
    (hA : AntennasBelow nR nAnt A) {p : Nat} (hp : p < nPol) (fuel : Nat) {st st' : Block Cx × Buf Fl}
    (h : Twin nR nCh nAnt nPol A Q nPol st st') :
    (doWhile (AF.fitStep RF RD nPol nCh nAnt p maxLevel) fuel st = some none ∧
      doWhile (AF.fitStep RF RD nPol nCh nAnt p maxLevel) fuel st' = some none) ∨
    ∃ s s', doWhile (AF.fitStep RF RD nPol nCh nAnt p maxLevel) fuel st = some (some s) ∧
      doWhile (AF.fitStep RF RD nPol nCh nAnt p maxLevel) fuel st' = some (some s') ∧
      Twin nR nCh nAnt nPol A Q nPol s s' := by
  induction fuel generalizing st st' with
  | zero => exact Or.inl ⟨rfl, rfl⟩
  | succ fuel ih =>
    obtain ⟨s, s', b, e1, e2, h1⟩ := h.fitStep hQ (maxLevel := maxLevel) hc0 hA hp
    rw [doWhile, doWhile, e1, e2, Option.bind_some, Option.bind_some]
    cases b with
    | true => exact ih h1
    | false => exact Or.inr ⟨s, s', rfl, rfl, h1⟩

theorem Twin.fitPols {RF RD : ℚ → Fl} (hQ : Stable RF RD (nPol * nCh) Q) {maxLevel : Fl} (hc0 : 0 < nCh)
    (hA : AntennasBelow nR nAnt A) (fuel : Nat) {st st' : Block Cx × Buf Fl} (h : Twin nR nCh nAnt nPol A Q nPol st st') :
    ∀ k, k ≤ nPol → (AF.fitPols RF RD nPol nCh nAnt maxLevel fuel k st = some none ∧
        AF.fitPols RF RD nPol nCh nAnt maxLevel fuel k st' = some none) ∨
      ∃ s s', AF.fitPols RF RD nPol nCh nAnt maxLevel fuel k st = some (some s) ∧
        AF.fitPols RF RD nPol nCh nAnt maxLevel fuel k st' = some (some s') ∧ Twin nR nCh nAnt nPol A Q nPol s s' := by
  intro k
  induction k with
  | zero => exact fun _ => Or.inr ⟨st, st', rfl, rfl, h⟩
  | succ k ih =>
    intro hk
    rw [AF.fitPols, AF.fitPols]
    rcases ih (by omega) with ⟨e1, e2⟩ | ⟨s, s', e1, e2, h1⟩
    · rw [e1, e2]
      exact Or.inl ⟨rfl, rfl⟩
    · rw [e1, e2]
      exact h1.loop hQ hc0 hA (by omega) fuel

theorem Twin.fitChannels {RF RD : ℚ → Fl} {Q' : Nat → Fl → Fl → Prop} {maxLevel : Fl} {st st' : Block Cx × Buf Fl}
    (hQ : ∀ i m m' f, i < nPol * nCh → Q i m m' → Q' i (Fl.cast RF (Fl.div RD m f)) (Fl.cast RF (Fl.div RD m' f)))
    (h : Twin nR nCh nAnt nPol A Q nPol st st') :
    ∃ s s', fitChannels RF RD nPol nCh maxLevel st = some s ∧ fitChannels RF RD nPol nCh maxLevel st' = some s' ∧
      Twin nR nCh nAnt nPol A Q' nPol s s' := by
  obtain ⟨s, e1, z1, mx, m1, v1, c1, o1⟩ := fitChannels_form (RF := RF) (RD := RD) (maxLevel := maxLevel) h.left
  obtain ⟨s', e2, z2, mx', m2, v2, c2, o2⟩ := fitChannels_form (RF := RF) (RD := RD) (maxLevel := maxLevel) h.right
  have hm : ∀ i, i < nPol * nCh → mx' i = mx i := by
    intro i hi
    have := h.crossMax hi
    rw [m1 _ hi, m2 _ hi] at this
    exact Option.some.inj this
  refine ⟨s, s', e1, e2, z1, z2, ?_, ?_, ?_⟩
  · intro r i hr hi
    rw [v1 r _ hr hi, v2 r _ hr hi, hm i hi, h.val r i hr hi]
  · intro i hi
    rw [c1 _ hi, c2 _ hi, hm i hi]
    exact hQ _ _ _ _ hi (h.chan i hi)
  · intro p a hp ha
    rw [o1 _ (by omega), o2 _ (by omega)]
    exact h.anten p a hp ha

theorem Twin.normalizeAntennas {RF RD : ℚ → Fl} {sq : Fl → Fl} {st st' : Block Cx × Buf Fl} (hA : AntennasBelow nR nAnt A)
    {p : Nat} (h : Twin nR nCh nAnt nPol A Q p st st') (hp : p < nPol) :
    ∃ s s', normalizeAntennas RF RD sq nPol nCh nAnt p st = some s ∧
      normalizeAntennas RF RD sq nPol nCh nAnt p st' = some s' ∧ Twin nR nCh nAnt nPol A Q (p + 1) s s' := by
  have hal := h.alike hp
  obtain ⟨data, metaB⟩ := st
  obtain ⟨data', metaB'⟩ := st'
  have l1 := h.left.len
  have l2 := h.right.len
  simp only at l1 l2 hal
  obtain ⟨ant, ea, la⟩ := antennaRms_some (RD := RD) (sq := sq) h.left.holds hA hp
  simp only at ea
  have ea' : AF.antennaRms RD sq nPol nCh nAnt p data' = some ant := (hal.antennaRms RD sq).trans ea
  obtain ⟨D1, d1, m1, e1, h1, v1, w1, n1, c1, o1⟩ := normalizeAntennas_spec (RF := RF) h.left.holds hA hp la ea metaB l1
  obtain ⟨D2, d2, m2, e2, h2, v2, w2, n2, c2, o2⟩ := normalizeAntennas_spec (RF := RF) h.right.holds hA hp la ea' metaB' l2
  refine ⟨_, _, e1, e2, ⟨holds_vals h1, by rw [n1]; exact l1⟩, ⟨holds_vals h2, by rw [n2]; exact l2⟩, ?_, ?_, ?_⟩
  · intro r i hr hi
    obtain ⟨i1, i2, i3⟩ := index_split hi
    rw [vals, vals, h1.vis r _ hr hi, h2.vis r _ hr hi, ← i3]
    by_cases he : i % nPol = p
    · rw [he, v1 r _ hr i2, v2 r _ hr i2, h.val r _ hr (chan_lt i2 hp)]
    · rw [w1 r _ _ i1 he, w2 r _ _ i1 he]
      exact h.val r _ hr (by rw [i3]; exact hi)
  · intro i hi
    simp only
    rw [o1 _ (fun a _ => by omega), o2 _ (fun a _ => by omega)]
    exact h.chan i hi
  · intro q a hq ha
    simp only
    by_cases he : q = p
    · subst he
      rw [c1 a ha, c2 a ha]
    · rw [o1 _ (fun a' ha' => anten_ne (Ne.symm he) ha ha'), o2 _ (fun a' ha' => anten_ne (Ne.symm he) ha ha')]
      exact h.anten q a (by omega) ha

theorem Twin.antennas {RF RD : ℚ → Fl} {sq : Fl → Fl} (hA : AntennasBelow nR nAnt A) {st st' : Block Cx × Buf Fl}
    (h : Twin nR nCh nAnt nPol A Q 0 st st') : ∀ k, k ≤ nPol →
    ∃ s s', forRange k (fun p st => AF.normalizeAntennas RF RD sq nPol nCh nAnt p st) st = some s ∧
      forRange k (fun p st => AF.normalizeAntennas RF RD sq nPol nCh nAnt p st) st' = some s' ∧
      Twin nR nCh nAnt nPol A Q k s s' := by
  intro k
  induction k with
  | zero => exact fun _ => ⟨st, st', rfl, rfl, h⟩
  | succ k ih =>
    intro hk
    obtain ⟨s, s', e1, e2, h1⟩ := ih (by omega)
    obtain ⟨t, t', f1, f2, h2⟩ := h1.normalizeAntennas (RF := RF) (RD := RD) (sq := sq) hA (by omega)
    refine ⟨t, t', ?_, ?_, h2⟩
    · rw [forRange, e1]; exact f1
    · rw [forRange, e2]; exact f2

/-- Two blocks whose values agree after they are divided by the RMS of their channel: either both encodings go on, or both
give the same symbols and the same antenna factors. -/
theorem encode_twin {RF RD : ℚ → Fl} {sq : Fl → Fl} {enc : Fl → Nat → Option Nat} {q : Nat} (hq : Total enc q)
    {Q' : Nat → Fl → Fl → Prop}
    (hQQ : ∀ i m m' f, i < nPol * nCh → Q i m m' → Q' i (Fl.cast RF (Fl.div RD m f)) (Fl.cast RF (Fl.div RD m' f)))
    (hQ : Stable RF RD (nPol * nCh) Q') {maxLevel : Fl} (hc0 : 0 < nCh) (hA : AntennasBelow nR nAnt A) (hR : 0 < nR)
    (h : Holds nR (nPol * nCh) A D data) (h' : Holds nR (nPol * nCh) A D' data')
    (hD : ∀ r i, r < nR → i < nPol * nCh → divRms RD (rms RD sq (measFold RD (fun r => D' r i) nR)) (D' r i) =
      divRms RD (rms RD sq (measFold RD (fun r => D r i) nR)) (D r i))
    (hQ0 : ∀ i, i < nPol * nCh → Q i (Fl.cast RF (rms RD sq (measFold RD (fun r => D r i) nR)))
      (Fl.cast RF (rms RD sq (measFold RD (fun r => D' r i) nR))))
    (dith : Nat → Nat) (fuel : Nat) {metaB metaB' : Buf Fl} {sym sym' : Buf Nat}
    (hb : nPol * nCh + nAnt * nPol ≤ metaB.len) (hb' : nPol * nCh + nAnt * nPol ≤ metaB'.len)
    (hs : nR * (nPol * nCh) * 2 ≤ sym.len) (hs' : nR * (nPol * nCh) * 2 ≤ sym'.len) :
    (encode RF RD sq enc maxLevel nPol nCh nAnt dith fuel data metaB sym = some none ∧
      encode RF RD sq enc maxLevel nPol nCh nAnt dith fuel data' metaB' sym' = some none) ∨
    ∃ m s m' s', encode RF RD sq enc maxLevel nPol nCh nAnt dith fuel data metaB sym = some (some (m, s)) ∧
      encode RF RD sq enc maxLevel nPol nCh nAnt dith fuel data' metaB' sym' = some (some (m', s')) ∧
      (∀ i, i < nPol * nCh → Q' i (m.get i) (m'.get i)) ∧
      (∀ p a, p < nPol → a < nAnt → m'.get (nPol * nCh + (nAnt * p + a)) = m.get (nPol * nCh + (nAnt * p + a))) ∧
      ∀ k, k < nR * (nPol * nCh) * 2 → s'.get k = s.get k := by
  obtain ⟨meas, e1, l1, g1⟩ := channelMeas_spec (RD := RD) h
  obtain ⟨meas', e1', l1', g1'⟩ := channelMeas_spec (RD := RD) h'
  obtain ⟨D1, d1, m1, e2, h1, v1, n1, c1, o1⟩ := normalizeChannels_spec (RF := RF) (RD := RD) (sq := sq) h meas l1 metaB (by omega)
  obtain ⟨D2, d2, m2, e2', h2, v2, n2, c2, o2⟩ := normalizeChannels_spec (RF := RF) (RD := RD) (sq := sq) h' meas' l1' metaB'
    (by omega)
  have t0 : Twin nR nCh nAnt nPol A Q 0 (d1, m1) (d2, m2) := by
    refine ⟨⟨holds_vals h1, by rw [n1]; exact hb⟩, ⟨holds_vals h2, by rw [n2]; exact hb'⟩, fun r i hr hi => ?_, fun i hi => ?_,
      fun p a hp => absurd hp (Nat.not_lt_zero _)⟩
    · rw [vals, vals, h1.vis r i hr hi, h2.vis r i hr hi, v1 r i hr hi, v2 r i hr hi, g1 i hi, g1' i hi]
      exact hD r i hr hi
    · simp only
      rw [c1 i hR hi, c2 i hR hi, g1 i hi, g1' i hi]
      exact hQ0 i hi
  obtain ⟨n, n', f1, f1', t1⟩ := t0.antennas (RF := RF) (RD := RD) (sq := sq) hA nPol (Nat.le_refl _)
  obtain ⟨c, c', f2, f2', t2⟩ := t1.fitChannels hQQ (maxLevel := maxLevel)
  have en : AF.normalize RF RD sq nPol nCh nAnt (data, metaB) = some n := by
    unfold AF.normalize
    rw [e1, Option.bind_some, e2, Option.bind_some]
    exact f1
  have en' : AF.normalize RF RD sq nPol nCh nAnt (data', metaB') = some n' := by
    unfold AF.normalize
    rw [e1', Option.bind_some, e2', Option.bind_some]
    exact f1'
  unfold encode fitToMaximum
  rw [en, Option.bind_some, f2, Option.bind_some, en', Option.bind_some, f2', Option.bind_some]
  rcases t2.fitPols hQ (maxLevel := maxLevel) hc0 hA fuel nPol (Nat.le_refl _) with ⟨a1, a2⟩ | ⟨t, t', a1, a2, a3⟩
  · rw [a1, a2]
    exact Or.inl ⟨rfl, rfl⟩
  · rw [a1, a2, Option.bind_some, Option.bind_some]
    simp only
    obtain ⟨u, u1, -, -, -, u2⟩ := quantise_total (RF := RF) hq (dith := dith) a3.left.holds sym hs
    obtain ⟨u', u1', -, -, -, u2'⟩ := quantise_total (RF := RF) hq (dith := dith) a3.right.holds sym' hs'
    rw [u1, u1']
    refine Or.inr ⟨_, _, _, _, rfl, rfl, a3.chan, a3.anten, fun k hk => ?_⟩
    have hn : 0 < nPol * nCh := Nat.pos_of_ne_zero (by intro h0; rw [h0] at hk; simp at hk)
    have hr : k / 2 / (nPol * nCh) < nR := Nat.div_lt_of_lt_mul (by rw [Nat.mul_comm]; omega)
    have hi : k / 2 % (nPol * nCh) < nPol * nCh := Nat.mod_lt _ hn
    have ek : (k / 2 / (nPol * nCh) * (nPol * nCh) + k / 2 % (nPol * nCh)) * 2 + k % 2 = k := by
      rw [Nat.div_add_mod']; omega
    have x := u2 _ _ hr hi
    have x' := u2' _ _ hr hi
    rw [a3.val _ _ hr hi] at x'
    rcases Nat.mod_two_eq_zero_or_one k with h0 | h0 <;> rw [h0] at ek
    · rw [Nat.add_zero] at ek
      have y := x'.1
      rw [x.1, ek] at y
      exact (Option.some.inj y).symm
    · have y := x'.2
      rw [x.2, ek] at y
      exact (Option.some.inj y).symm

/-! ## Rounding of scaled values -/

/-- Rounding to double commutes with a power of two for zero and for values far from the ends of the range. -/
theorem r64_twin {x : ℚ} {k l h : ℤ} (hl : -900 ≤ l) (hlh : l ≤ h) (hh : h ≤ 900) (m : Mid l h x) (m' : Mid l h (x * 2 ^ k)) :
    ∃ P, Fl.r64 x = .fin P ∧ Fl.r64 (x * 2 ^ k) = .fin (P * 2 ^ k) ∧ (0 ≤ x → 0 ≤ P) ∧ Mid l h P ∧
      Mid l h (P * 2 ^ k) := by
  rcases eq_or_ne x 0 with rfl | hx
  · exact ⟨0, r64_zero', by rw [zero_mul, r64_zero'], fun _ => le_refl _, Or.inl rfl, Or.inl (zero_mul _)⟩
  · have hx' : x * 2 ^ k ≠ 0 := mul_ne_zero hx (Fl.zp_pos k).ne'
    obtain ⟨a1, a2⟩ := m.resolve_left hx
    obtain ⟨b1, b2⟩ := m'.resolve_left hx'
    obtain ⟨P, e1, e2, -⟩ := Fl.r64_mul_pow (le_trans (zle (by omega)) a1) (le_trans a2 (zle (by omega)))
      (le_trans (zle (by omega)) b1) (le_trans b2 (zle (by omega)))
    have hr := repr64_pow (by omega : (-1000 : ℤ) ≤ l)
    have hr2 := repr64_pow (by omega : (-1000 : ℤ) ≤ h)
    obtain ⟨q, f1, f2, f3⟩ := r64_between_abs hr hr2 (Fl.zp_pos _).le (zle (by omega)) a1 a2
    obtain ⟨q', f1', f2', f3'⟩ := r64_between_abs hr hr2 (Fl.zp_pos _).le (zle (by omega)) b1 b2
    rw [e1] at f1
    rw [e2] at f1'
    cases f1
    cases f1'
    refine ⟨P, e1, e2, fun h0 => ?_, Or.inr ⟨f2, f3⟩, Or.inr ⟨f2', f3'⟩⟩
    rw [abs_of_nonneg h0] at a2
    obtain ⟨q, g1, g2, -⟩ := r64_between (Fl.Repr.zero _) hr2 (le_refl _) (zle (by omega)) h0 a2
    rw [e1] at g1
    cases g1
    exact g2

theorem mid_float {a : ℚ} (h : Fl.Repr Fl.binary32 a ∧ |a| < 2 ^ (128 : ℤ)) : Mid (-149) 128 a := by
  rcases eq_or_ne a 0 with h0 | h0
  · exact Or.inl h0
  · exact Or.inr ⟨Fl.repr32_ge h.1.abs (abs_pos.2 h0), h.2.le⟩

theorem Mid.square {l h : ℤ} {a : ℚ} (ha : Mid l h a) : Mid (2 * l) (2 * h) (a * a) := by
  rcases ha with rfl | ⟨h1, h2⟩
  · exact Or.inl (mul_zero _)
  · refine Or.inr ?_
    rw [abs_mul_self]
    exact ⟨le_sq_abs h1, sq_abs_le h2⟩

theorem Mid.plus {l h : ℤ} {a b : ℚ} (a0 : 0 ≤ a) (b0 : 0 ≤ b) (ha : Mid l h a) (hb : Mid l h b) : Mid l (h + 1) (a + b) := by
  have e : (2 : ℚ) ^ (h + 1) = 2 ^ h + 2 ^ h := by rw [zpow_add₀ (by norm_num : (2 : ℚ) ≠ 0), zpow_one]; ring
  have ha' := ha.le
  have hb' := hb.le
  rw [abs_of_nonneg a0] at ha'
  rw [abs_of_nonneg b0] at hb'
  have up : |a + b| ≤ 2 ^ (h + 1) := by
    rw [abs_of_nonneg (add_nonneg a0 b0), e]
    linarith
  rcases ha with rfl | ⟨h1, -⟩
  · rcases hb with rfl | ⟨h2, -⟩
    · exact Or.inl (add_zero _)
    · refine Or.inr ⟨?_, up⟩
      rw [zero_add]
      exact h2
  · refine Or.inr ⟨?_, up⟩
    rw [abs_of_nonneg a0] at h1
    rw [abs_of_nonneg (add_nonneg a0 b0)]
    linarith

/-! ## The RMS of a scaled channel -/

variable {v : Nat → Cx} {j : ℤ} {n : Nat}

theorem measured_floats (hn : n ≤ 2 ^ 24) (hF : ∀ r, r < n → FloatVis (v r)) :
    ∃ s, Measured (-149) 128 (fun w => ∃ r, r < n ∧ w = v r) (measFold Fl.r64 v n) s ∧ (measFold Fl.r64 v n).1 ≤ n :=
  channel_measured (by norm_num) (by norm_num) (by norm_num) hn fun r hr _ a ha => mid_float (hF r hr a ha)

theorem Measured.mid {V : Cx → Prop} {m : Nat × Fl} {s : ℚ} (h : Measured (-149) 128 V m s) (hm : m.1 ≤ 2 ^ 24) :
    Mid (-298) 281 s := by
  rcases h.low with h0 | h0
  · exact Or.inl h0
  · refine Or.inr ?_
    rw [abs_of_nonneg h.nonneg]
    refine ⟨h0, le_trans h.high ?_⟩
    have hq : (m.1 : ℚ) ≤ 2 ^ (24 : ℤ) := by exact_mod_cast hm
    refine le_trans (mul_le_mul_of_nonneg_right hq (Fl.zp_pos _).le) ?_
    rw [zadd]
    exact zle (by norm_num)

theorem r64_repr {x y : ℚ} (h : Fl.r64 x = .fin y) : Fl.Repr Fl.binary64 y := by
  unfold Fl.r64 Fl.round at h
  split at h
  · cases h
    exact Fl.repr_rnd _ _
  · cases h

/-- The number of samples stays, the sum of their squares is multiplied by the square of the power. -/
theorem measFold_scaled (hn : n ≤ 2 ^ 24) (hF : ∀ r, r < n → FloatVis (v r)) (hF' : ∀ r, r < n → FloatVis ((v r).scale2 j)) :
    ∃ s, (measFold Fl.r64 v n).2 = .fin s ∧ measFold Fl.r64 (fun r => (v r).scale2 j) n =
      ((measFold Fl.r64 v n).1, .fin (s * 2 ^ (2 * j))) := by
  induction n with
  | zero => exact ⟨0, rfl, by rw [zero_mul]; rfl⟩
  | succ n ih =>
    obtain ⟨s, e1, e2⟩ := ih (by omega) (fun r hr => hF r (by omega)) (fun r hr => hF' r (by omega))
    obtain ⟨t, ht, hc⟩ := measured_floats (n := n) (by omega) (fun r hr => hF r (by omega))
    obtain ⟨t', ht', hc'⟩ := measured_floats (v := fun r => (v r).scale2 j) (n := n) (by omega) (fun r hr => hF' r (by omega))
    have s1 := ht.sum
    have s2 := ht'.sum
    rw [e1] at s1
    rw [e2] at s2
    cases s1
    cases s2
    have hs := ht.mid (by omega)
    have hs' := ht'.mid (by omega)
    have hsn := ht.nonneg
    have hsn' := ht'.nonneg
    rw [measFold, measFold, e2]
    by_cases hf : ((v n).re.isFinite && (v n).im.isFinite) = true
    · obtain ⟨x, y, hxy⟩ := (fullyFinite_iff _).mp hf
      have fx := mid_float (hF n (by omega) x (by rw [hxy]; exact Or.inl rfl))
      have fy := mid_float (hF n (by omega) y (by rw [hxy]; exact Or.inr rfl))
      have fx' := mid_float (hF' n (by omega) (x * 2 ^ j) (by rw [hxy]; exact Or.inl rfl))
      have fy' := mid_float (hF' n (by omega) (y * 2 ^ j) (by rw [hxy]; exact Or.inr rfl))
      have sq2 : ∀ a : ℚ, a * 2 ^ j * (a * 2 ^ j) = a * a * 2 ^ (2 * j) := by
        intro a
        rw [two_mul, zpow_add₀ (by norm_num)]
        ring
      have key : ∀ a : ℚ, Mid (-149) 128 a → Mid (-149) 128 (a * 2 ^ j) → ∃ P, Fl.r64 (a * a) = .fin P ∧
          Fl.r64 (a * 2 ^ j * (a * 2 ^ j)) = .fin (P * 2 ^ (2 * j)) ∧ 0 ≤ P ∧ Mid (-298) 256 P ∧
          Mid (-298) 256 (P * 2 ^ (2 * j)) := by
        intro a h1 h2
        have q1 := h1.square.mono (lo' := -298) (hi' := 256) (by norm_num) (by norm_num)
        have q2 := h2.square.mono (lo' := -298) (hi' := 256) (by norm_num) (by norm_num)
        rw [sq2] at q2
        obtain ⟨P, p1, p2, p3, p4, p5⟩ := r64_twin (by norm_num) (by norm_num) (by norm_num) q1 q2
        exact ⟨P, p1, by rw [sq2]; exact p2, p3 (mul_self_nonneg a), p4, p5⟩
      obtain ⟨P, p1, p2, p3, p4, p5⟩ := key x fx fx'
      obtain ⟨R, q1, q2, q3, q4, q5⟩ := key y fy fy'
      have pow0 := (Fl.zp_pos (2 * j)).le
      obtain ⟨T, t1, t2, t3, t4, t5⟩ := r64_twin (k := 2 * j) (by norm_num) (by norm_num) (by norm_num)
        (Mid.plus p3 q3 p4 q4) (by rw [add_mul]; exact Mid.plus (mul_nonneg p3 pow0) (mul_nonneg q3 pow0) p5 q5)
      have T0 := t3 (add_nonneg p3 q3)
      obtain ⟨U, u1, u2, -, -, -⟩ := r64_twin (k := 2 * j) (l := -298) (h := 281 + 1) (by norm_num) (by norm_num) (by norm_num)
        (Mid.plus hsn T0 (hs.mono (by norm_num) (by norm_num)) (t4.mono (by norm_num) (by norm_num : (256 : ℤ) + 1 ≤ 281)))
        (by
          rw [add_mul]
          exact Mid.plus hsn' (mul_nonneg T0 pow0) (hs'.mono (by norm_num) (by norm_num))
            (t5.mono (by norm_num) (by norm_num : (256 : ℤ) + 1 ≤ 281)))
      refine ⟨U, ?_, ?_⟩
      · unfold includeVis
        rw [if_pos hf, hxy]
        simp only [Fl.mul, Fl.add, p1, q1, t1, e1, u1]
      · unfold includeVis
        have hf' : (((v n).scale2 j).re.isFinite && ((v n).scale2 j).im.isFinite) = true := by
          rw [hxy]; rfl
        rw [if_pos hf', if_pos hf, hxy]
        simp only [Cx.scale2, Fl.scale2, Fl.mul, Fl.add, p2, q2, ← add_mul, t2, u2]
    · refine ⟨s, ?_, ?_⟩
      · unfold includeVis
        rw [if_neg hf, e1]
      · unfold includeVis
        have hf' : ¬ (((v n).scale2 j).re.isFinite && ((v n).scale2 j).im.isFinite) = true := by
          intro hh
          apply hf
          cases h1 : (v n).re <;> cases h2 : (v n).im <;>
            simp [Cx.scale2, Fl.scale2, h1, h2, Fl.isFinite] at hh ⊢
        rw [if_neg hf', if_neg hf]

/-- The square root of a number times a power of four is the square root times the power of two, in the range of the values
that occur. Not in the code. -/
def SqrtPow (sq : Fl → Fl) : Prop :=
  ∀ (x : ℚ) (k : ℤ), Fl.Repr Fl.binary64 x → (2 : ℚ) ^ (-600 : ℤ) ≤ x → x ≤ 2 ^ (600 : ℤ) → (2 : ℚ) ^ (-600 : ℤ) ≤ x * 2 ^ (2 * k) →
    x * 2 ^ (2 * k) ≤ 2 ^ (600 : ℤ) → sq (.fin (x * 2 ^ (2 * k))) = (sq (.fin x)).scale2 k

/-- The RMS of a scaled channel. -/
theorem rms_scaled {sq : Fl → Fl} (hsq : SqrtMono sq) (hsp : SqrtPow sq) (hn : n ≤ 2 ^ 24) (hF : ∀ r, r < n → FloatVis (v r))
    (hF' : ∀ r, r < n → FloatVis ((v r).scale2 j)) :
    rms Fl.r64 sq (measFold Fl.r64 (fun r => (v r).scale2 j) n) = (rms Fl.r64 sq (measFold Fl.r64 v n)).scale2 j := by
  obtain ⟨s, e1, e2⟩ := measFold_scaled hn hF hF'
  obtain ⟨t, ht, hc⟩ := measured_floats hn hF
  obtain ⟨t', ht', hc'⟩ := measured_floats (v := fun r => (v r).scale2 j) hn hF'
  have s1 := ht.sum
  have s2 := ht'.sum
  rw [e1] at s1
  rw [e2] at s2
  cases s1
  cases s2
  have hs := ht.mid (by omega)
  have hs' := ht'.mid (by rw [e2]; simp only; omega)
  have hsn := ht.nonneg
  unfold rms
  rw [e2, e1]
  simp only
  rcases Nat.eq_zero_or_pos (measFold Fl.r64 v n).1 with hc0 | hpos
  · have h0 : s = 0 := by
      have := ht.high
      rw [hc0, Nat.cast_zero, zero_mul] at this
      exact le_antisymm this hsn
    rw [hc0, h0, zero_mul]
    simp [Fl.div, hsq.nan, Fl.scale2]
  · generalize (measFold Fl.r64 v n).1 = c at hc hpos
    have hcq : (0 : ℚ) < ((c * 2 : ℕ) : ℚ) := by exact_mod_cast (by omega : 0 < c * 2)
    have hc1 : (1 : ℚ) ≤ ((c * 2 : ℕ) : ℚ) := by exact_mod_cast (by omega : 1 ≤ c * 2)
    have hc2 : ((c * 2 : ℕ) : ℚ) ≤ 2 ^ (25 : ℤ) := by
      have : c * 2 ≤ 2 ^ 25 := by
        have : (2 : ℕ) ^ 25 = 2 ^ 24 * 2 := by norm_num
        omega
      exact_mod_cast this
    have hdiv : ∀ x : ℚ, Mid (-298) 281 x → Mid (-323) 281 (x / ((c * 2 : ℕ) : ℚ)) := by
      intro x hx
      rcases hx with rfl | ⟨h1, h2⟩
      · exact Or.inl (zero_div _)
      · refine Or.inr ?_
        rw [abs_div, abs_of_pos hcq]
        constructor
        · rw [le_div_iff₀ hcq]
          refine le_trans (mul_le_mul_of_nonneg_left hc2 (Fl.zp_pos _).le) ?_
          rw [zadd]
          exact h1
        · exact le_trans (div_le_self (abs_nonneg _) hc1) h2
    have ed : s * 2 ^ (2 * j) / ((c * 2 : ℕ) : ℚ) = s / ((c * 2 : ℕ) : ℚ) * 2 ^ (2 * j) := by ring
    have m1 := hdiv _ hs
    have m2 := hdiv _ hs'
    rw [ed] at m2
    obtain ⟨P, p1, p2, p3, p4, p5⟩ := r64_twin (k := 2 * j) (by norm_num) (by norm_num) (by norm_num) m1 m2
    have P0 := p3 (div_nonneg hsn hcq.le)
    simp only [Fl.div, if_neg hcq.ne', ed, p1, p2]
    rcases eq_or_ne P 0 with rfl | hP
    · rw [zero_mul, hsq.zero]
      simp [Fl.scale2]
    · obtain ⟨a1, a2⟩ := p4.resolve_left hP
      obtain ⟨b1, b2⟩ := p5.resolve_left (mul_ne_zero hP (Fl.zp_pos _).ne')
      rw [abs_of_nonneg P0] at a1 a2
      rw [abs_of_nonneg (mul_nonneg P0 (Fl.zp_pos _).le)] at b1 b2
      exact hsp P j (r64_repr p1) (le_trans (zle (by norm_num)) a1) (le_trans a2 (zle (by norm_num))) (le_trans (zle (by norm_num)) b1)
        (le_trans b2 (zle (by norm_num)))

theorem scale2_zero_iff (f : Fl) (j : ℤ) : Fl.eq (f.scale2 j) (.fin 0) = Fl.eq f (.fin 0) := by
  cases f with
  | fin a => simp [Fl.scale2, Fl.eq, (Fl.zp_pos j).ne']
  | inf n => rfl
  | nan => rfl

theorem div_scale2 (c : Fl) {y : ℚ} (hy : 0 < y) (j : ℤ) :
    Fl.div Fl.r64 (c.scale2 j) ((Fl.fin y).scale2 j) = Fl.div Fl.r64 c (.fin y) := by
  have hp := Fl.zp_pos j
  have hyp := mul_pos hy hp
  cases c with
  | fin a => simp only [Fl.scale2, Fl.div, if_neg hy.ne', if_neg hyp.ne', mul_div_mul_right _ _ hp.ne']
  | inf n => simp only [Fl.scale2, Fl.div, decide_eq_false (not_lt.2 hy.le), decide_eq_false (not_lt.2 hyp.le)]
  | nan => rfl

/-- A channel whose values all stay, or that has a sample that counts and is not zero, or that has no sample that counts.
Not in the code. -/
def Scalable (j : ℤ) (v : Nat → Cx) (n : Nat) : Prop :=
  (∀ r, r < n → (v r).scale2 j = v r) ∨ (∃ r, r < n ∧ FullyFinite (v r) ∧ v r ≠ ⟨.fin 0, .fin 0⟩) ∨
    ∀ r, r < n → ¬ FullyFinite (v r)

/-- After the division by the RMS the values are the same. -/
theorem divRms_scaled {sq : Fl → Fl} (hsq : SqrtMono sq) (hsp : SqrtPow sq) (hn : n ≤ 2 ^ 24) (hF : ∀ r, r < n → FloatVis (v r))
    (hF' : ∀ r, r < n → FloatVis ((v r).scale2 j)) (hS : Scalable j v n) {r : Nat} (hr : r < n) :
    divRms Fl.r64 (rms Fl.r64 sq (measFold Fl.r64 (fun r => (v r).scale2 j) n)) ((v r).scale2 j) =
      divRms Fl.r64 (rms Fl.r64 sq (measFold Fl.r64 v n)) (v r) := by
  have hrms := rms_scaled hsq hsp hn hF hF'
  rcases hS with hS | hS
  · have e : measFold Fl.r64 (fun r => (v r).scale2 j) n = measFold Fl.r64 v n := by
      have : ∀ k, k ≤ n → measFold Fl.r64 (fun r => (v r).scale2 j) k = measFold Fl.r64 v k := by
        intro k
        induction k with
        | zero => exact fun _ => rfl
        | succ k ih =>
          intro hk
          rw [measFold, measFold, ih (by omega), hS k (by omega)]
      exact this n (Nat.le_refl _)
    rw [e, hS r hr]
  · obtain ⟨s, ht, hc⟩ := measured_floats hn hF
    rw [hrms]
    rcases ht.rms hsq (by norm_num) (by norm_num) (by norm_num) (by omega) with ⟨-, e⟩ | ⟨hpos, y, e, y0, y1, -, y2⟩
    · rw [e]
      simp [divRms, Fl.scale2, Fl.eq, Cx.divBy, Cx.scale2, Fl.div]
    · have hy : 0 < y := by
        rcases hS with ⟨r', hr', hff, hne⟩ | hS
        · obtain ⟨a, c, hac⟩ := hff
          have key : ∀ a, IsComp (v r') a → a ≠ 0 → 0 < y := by
            intro a ha ha0
            have := Fl.repr32_ge (hF r' hr' a ha).1.abs (abs_pos.2 ha0)
            exact lt_of_lt_of_le (Fl.zp_pos _) (y2 (v r') ⟨r', hr', rfl⟩ ⟨_, _, hac⟩ a ha (-149) (by norm_num) this)
          rcases eq_or_ne a 0 with ha | ha
          · refine key c (by rw [hac]; exact Or.inr rfl) ?_
            rintro rfl
            rw [ha] at hac
            exact hne hac
          · exact key a (by rw [hac]; exact Or.inl rfl) ha
        · exfalso
          have : (measFold Fl.r64 v n).1 = 0 := by
            have h0 : ∀ k, k ≤ n → (measFold Fl.r64 v k).1 = 0 := by
              intro k
              induction k with
              | zero => exact fun _ => rfl
              | succ k ih =>
                intro hk
                rw [measFold, includeVis, if_neg (fun hh => hS k (by omega) ((fullyFinite_iff _).mp hh))]
                exact ih (by omega)
            exact h0 n (Nat.le_refl _)
          omega
      rw [e]
      unfold divRms
      rw [scale2_zero_iff]
      have h0 : Fl.eq (.fin y) (.fin 0) = false := by simp [Fl.eq, hy.ne']
      rw [h0]
      simp only [Bool.false_eq_true, if_false, Cx.divBy, Cx.scale2, div_scale2 _ hy]

/-! ## The stored channel factors -/

theorem eq_of_r32 {x y : ℚ} (h : Fl.r32 x = .fin y) : y = Fl.rnd Fl.binary32 x ∧ |y| < 2 ^ (128 : ℤ) := by
  unfold Fl.r32 Fl.round at h
  split at h
  · rename_i hlt
    cases h
    exact ⟨rfl, hlt⟩
  · cases h

/-- Two roundings to float, both of them normal. -/
theorem r32_twin {P y y' : ℚ} {j : ℤ} (h : Fl.r32 P = .fin y) (h' : Fl.r32 (P * 2 ^ j) = .fin y')
    (h1 : (2 : ℚ) ^ (-126 : ℤ) < |y|) (h1' : (2 : ℚ) ^ (-126 : ℤ) < |y'|) : y' = y * 2 ^ j := by
  have low : ∀ {P y : ℚ}, Fl.r32 P = .fin y → (2 : ℚ) ^ (-126 : ℤ) < |y| → (2 : ℚ) ^ (-126 : ℤ) ≤ |P| := by
    intro P y h h1
    by_contra hc
    exact absurd ((r32_pow_le (by norm_num) h).2 (not_le.1 hc).le) (not_le.2 h1)
  rw [(eq_of_r32 h).1, (eq_of_r32 h').1]
  exact Fl.rnd_mul_pow (f := Fl.binary32) (low h h1) (low h' h1')

/-- Two roundings to float by way of double, both of them normal. -/
theorem r32_r64_twin {x y y' : ℚ} {j : ℤ} (h : Fl.cast Fl.r32 (Fl.r64 x) = .fin y)
    (h' : Fl.cast Fl.r32 (Fl.r64 (x * 2 ^ j)) = .fin y') (h1 : (2 : ℚ) ^ (-126 : ℤ) < |y|) (h1' : (2 : ℚ) ^ (-126 : ℤ) < |y'|) :
    y' = y * 2 ^ j := by
  have key : ∀ {x y : ℚ}, Fl.cast Fl.r32 (Fl.r64 x) = .fin y → (2 : ℚ) ^ (-126 : ℤ) < |y| →
      ∃ P, Fl.r64 x = .fin P ∧ Fl.r32 P = .fin y ∧ (2 : ℚ) ^ (-127 : ℤ) ≤ |x| ∧ |x| ≤ 2 ^ (129 : ℤ) := by
    intro x y h h1
    cases hP : Fl.r64 x with
    | fin P =>
      rw [hP] at h
      have e : Fl.r32 P = .fin y := h
      have low : (2 : ℚ) ^ (-126 : ℤ) ≤ |P| := by
        by_contra hc
        exact absurd ((r32_pow_le (by norm_num) e).2 (not_le.1 hc).le) (not_le.2 h1)
      have high : |P| ≤ 2 ^ (128 : ℤ) := by
        by_contra hc
        exact absurd ((r32_pow_le (by norm_num) e).1 (not_le.1 hc).le) (not_le.2 (eq_of_r32 e).2)
      refine ⟨P, rfl, e, ?_, ?_⟩
      · by_contra hc
        obtain ⟨q, f1, -, f3⟩ := r64_between_abs (Fl.Repr.zero _) (repr64_pow (by norm_num : (-1000 : ℤ) ≤ -127)) (le_refl _)
          (zle (by norm_num)) (abs_nonneg x) (not_le.1 hc).le
        rw [hP] at f1
        cases f1
        exact absurd (le_trans low f3) (not_le.2 (zpow_lt_zpow_right₀ (by norm_num) (by norm_num)))
      · by_contra hc
        exact absurd (le_trans (r64_pow_le (by norm_num) hP (not_le.1 hc).le) high)
          (not_le.2 (zpow_lt_zpow_right₀ (by norm_num) (by norm_num)))
    | inf n => rw [hP] at h; cases h
    | nan => rw [hP] at h; cases h
  obtain ⟨P, p1, p2, x1, x2⟩ := key h h1
  obtain ⟨P', p1', p2', x1', x2'⟩ := key h' h1'
  obtain ⟨R, f1, f2, -⟩ := Fl.r64_mul_pow (x := x) (j := j) (le_trans (zle (by norm_num)) x1)
    (le_trans x2 (zle (by norm_num))) (le_trans (zle (by norm_num)) x1') (le_trans x2' (zle (by norm_num)))
  rw [p1] at f1
  rw [p1'] at f2
  cases f1
  cases f2
  exact r32_twin p2 p2' h1 h1'

/-- A number that is not a normal float. Not in the code. -/
def Tiny (x : Fl) : Prop := ∀ y, x = .fin y → |y| ≤ 2 ^ (-126 : ℤ)

theorem not_tiny {x : Fl} (h : ¬ Tiny x) : ∃ y, x = .fin y ∧ (2 : ℚ) ^ (-126 : ℤ) < |y| := by
  unfold Tiny at h
  push Not at h
  exact h

theorem quotient_twin {m f : Fl} {j : ℤ} (h : ¬ Tiny (Fl.cast Fl.r32 (Fl.div Fl.r64 m f)))
    (h' : ¬ Tiny (Fl.cast Fl.r32 (Fl.div Fl.r64 (m.scale2 j) f))) :
    Fl.cast Fl.r32 (Fl.div Fl.r64 (m.scale2 j) f) = (Fl.cast Fl.r32 (Fl.div Fl.r64 m f)).scale2 j := by
  obtain ⟨y, e, h1⟩ := not_tiny h
  obtain ⟨y', e', h1'⟩ := not_tiny h'
  cases m with
  | fin a =>
    cases f with
    | fin b =>
      rcases eq_or_ne b 0 with rfl | hb
      · simp only [Fl.div, if_true] at e
        split at e <;> cases e
      · have e1 : Fl.div Fl.r64 (.fin a) (.fin b) = Fl.r64 (a / b) := by simp only [Fl.div, if_neg hb]
        have e2 : Fl.div Fl.r64 ((Fl.fin a).scale2 j) (.fin b) = Fl.r64 (a / b * 2 ^ j) := by
          simp only [Fl.scale2, Fl.div, if_neg hb, div_mul_eq_mul_div]
        rw [e1] at e
        rw [e2] at e'
        rw [e1, e2, e, e', r32_r64_twin e e' h1 h1']
        rfl
    | inf n =>
      simp only [Fl.div, Fl.cast, Fl.r32_zero] at e
      cases e
      rw [abs_zero] at h1
      exact absurd h1 (not_lt.2 (Fl.zp_pos _).le)
    | nan => rfl
  | inf n => cases f <;> cases e
  | nan => rfl

/-- A factor that is lost stays lost when it is divided by a number that is not less than one. -/
theorem Tiny.div {m f : Fl} (hm : Tiny m) (hf : Fl.lt f (.fin 1) = false) : Tiny (Fl.cast Fl.r32 (Fl.div Fl.r64 m f)) := by
  intro y e
  cases m with
  | fin a =>
    have ha := hm a rfl
    cases f with
    | fin b =>
      have hb : (1 : ℚ) ≤ b := by simpa [Fl.lt] using hf
      have hb0 : b ≠ 0 := by linarith
      simp only [Fl.div, if_neg hb0] at e
      have hle : |a / b| ≤ 2 ^ (-126 : ℤ) := by
        rw [abs_div, abs_of_pos (by linarith : (0 : ℚ) < b)]
        exact le_trans (div_le_self (abs_nonneg _) hb) ha
      obtain ⟨q, f1, -, f3⟩ := r64_between_abs (Fl.Repr.zero _) (repr64_pow (by norm_num : (-1000 : ℤ) ≤ -126)) (le_refl _)
        (zle (by norm_num)) (abs_nonneg (a / b)) hle
      rw [f1] at e
      exact (r32_pow_le (by norm_num) e).2 f3
    | inf n =>
      simp only [Fl.div, Fl.cast, Fl.r32_zero] at e
      cases e
      rw [abs_zero]
      exact (Fl.zp_pos _).le
    | nan => cases e
  | inf n => cases f <;> cases e
  | nan => cases f <;> cases e

/-- One of two factors is lost, or the second is the first times a power of two. Not in the code. -/
def Scaled (j : Nat → ℤ) (i : Nat) (m m' : Fl) : Prop := Tiny m ∨ Tiny m' ∨ m' = m.scale2 (j i)

theorem scaled_stable (j : Nat → ℤ) (n : Nat) : Stable Fl.r32 Fl.r64 n (Scaled j) := by
  rintro i m m' f _ hf (h | h | h)
  · exact Or.inl (h.div hf)
  · exact Or.inr (Or.inl (h.div hf))
  · by_cases h1 : Tiny (Fl.cast Fl.r32 (Fl.div Fl.r64 m f))
    · exact Or.inl h1
    · by_cases h2 : Tiny (Fl.cast Fl.r32 (Fl.div Fl.r64 m' f))
      · exact Or.inr (Or.inl h2)
      · subst h
        exact Or.inr (Or.inr (quotient_twin h1 h2))

/-- The first division, by any number. -/
theorem scaled_first {j : Nat → ℤ} {i : Nat} (f : Fl) {m m' : Fl} (h : m' = m.scale2 (j i)) :
    Scaled j i (Fl.cast Fl.r32 (Fl.div Fl.r64 m f)) (Fl.cast Fl.r32 (Fl.div Fl.r64 m' f)) := by
  by_cases h1 : Tiny (Fl.cast Fl.r32 (Fl.div Fl.r64 m f))
  · exact Or.inl h1
  · by_cases h2 : Tiny (Fl.cast Fl.r32 (Fl.div Fl.r64 m' f))
    · exact Or.inr (Or.inl h2)
    · subst h
      exact Or.inr (Or.inr (quotient_twin h1 h2))

/-- The RMS as a float. -/
theorem cast_twin {R : Fl} {j : ℤ} (h : ¬ Tiny (Fl.cast Fl.r32 R)) (h' : ¬ Tiny (Fl.cast Fl.r32 (R.scale2 j))) :
    Fl.cast Fl.r32 (R.scale2 j) = (Fl.cast Fl.r32 R).scale2 j := by
  obtain ⟨y, e, h1⟩ := not_tiny h
  obtain ⟨y', e', h1'⟩ := not_tiny h'
  cases R with
  | fin x =>
    rw [e', e, r32_twin e e' h1 h1']
    rfl
  | inf n => rfl
  | nan => rfl

/-- A coarse square root meets the assumption, too. -/
theorem coarseSqrt_pow : SqrtPow coarseSqrt := by
  intro x k _ h1 h2 h3 h4
  have hx : 0 < x := lt_of_lt_of_le (Fl.zp_pos _) h1
  clear h1 h2 h3 h4
  simp only [coarseSqrt, if_neg hx.ne', if_neg (mul_pos hx (Fl.zp_pos _)).ne', Fl.scale2, Fl.log_mul_pow hx]
  rw [zadd]
  congr 2
  omega

/-- The channel factors before the fit. Not in the code. -/
def FirstPair (R : Nat → Fl) (j : Nat → ℤ) (i : Nat) (m m' : Fl) : Prop :=
  m = Fl.cast Fl.r32 (R i) ∧ m' = Fl.cast Fl.r32 ((R i).scale2 (j i))

/-- The channel factors after it. Not in the code. -/
def LastPair (R : Nat → Fl) (j : Nat → ℤ) (i : Nat) (m m' : Fl) : Prop :=
  ¬ Tiny (Fl.cast Fl.r32 (R i)) → ¬ Tiny (Fl.cast Fl.r32 ((R i).scale2 (j i))) → Scaled j i m m'

theorem firstPair_div {R : Nat → Fl} {j : Nat → ℤ} {i : Nat} {m m' : Fl} (f : Fl) (h : FirstPair R j i m m') :
    LastPair R j i (Fl.cast Fl.r32 (Fl.div Fl.r64 m f)) (Fl.cast Fl.r32 (Fl.div Fl.r64 m' f)) := by
  obtain ⟨rfl, rfl⟩ := h
  exact fun h1 h2 => scaled_first f (cast_twin h1 h2)

theorem lastPair_stable (R : Nat → Fl) (j : Nat → ℤ) (n : Nat) : Stable Fl.r32 Fl.r64 n (LastPair R j) :=
  fun i m m' f hi hf h h1 h2 => scaled_stable j n i m m' f hi hf (h h1 h2)

end Dysco.AF
