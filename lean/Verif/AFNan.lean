import Verif.AFLayout
import Verif.AFProps

/-!
# C81: non-finite samples of antenna-frequency normalised data, in any arithmetic
-/

namespace Dysco.AF
open TimeBlock Stochastic

variable {nR nPol nCh nAnt : Nat} {A : Nat → Nat × Nat} {D : Nat → Nat → Cx} {data : Block Cx}

theorem div_nonfinite {R : ℚ → Fl} {v f : Fl} (h : v.isFinite = false) : (Fl.div R v f).isFinite = false := by
  cases v with
  | fin q => simp [Fl.isFinite] at h
  | nan => rfl
  | inf s =>
    cases f with
    | nan => rfl
    | inf t => rfl
    | fin q => rfl

/-- The non-finite components of `v` are non-finite in `w`. -/
def Spoilt (v w : Cx) : Prop :=
  (v.re.isFinite = false → w.re.isFinite = false) ∧ (v.im.isFinite = false → w.im.isFinite = false)

theorem Spoilt.scale {R : ℚ → Fl} {v w : Cx} (h : Spoilt v w) (f : Fl) : Spoilt v (w.scale R f) :=
  ⟨fun hv => mul_nonfinite (h.1 hv), fun hv => mul_nonfinite (h.2 hv)⟩

theorem Spoilt.scaleN {R : ℚ → Fl} {v w : Cx} (h : Spoilt v w) (f : Fl) (k : Nat) :
    Spoilt v (scaleN R f k w) := by
  induction k with
  | zero => exact h
  | succ k ih => exact ih.scale f

theorem Spoilt.divRms {R : ℚ → Fl} {v w : Cx} (h : Spoilt v w) (s : Fl) : Spoilt v (divRms R s w) := by
  unfold AF.divRms
  split
  · exact h
  · exact ⟨fun hv => div_nonfinite (h.1 hv), fun hv => div_nonfinite (h.2 hv)⟩

/-- The block still has the non-finite components of `D`. -/
def Keeps (nR nPol nCh : Nat) (A : Nat → Nat × Nat) (D : Nat → Nat → Cx) (len : Nat)
    (st : Block Cx × Buf Fl) : Prop :=
  ∃ D', Holds nR (nPol * nCh) A D' st.1 ∧ st.2.len = len ∧
    ∀ r c p, r < nR → c < nCh → p < nPol → Spoilt (D r (c * nPol + p)) (D' r (c * nPol + p))

variable {len : Nat} {RF RD : ℚ → Fl}

theorem Keeps.channel {st : Block Cx × Buf Fl} (h : Keeps nR nPol nCh A D len st)
    (hb : nPol * nCh ≤ len) {i : Nat} (hi : i < nPol * nCh) (f : Fl) :
    ∃ st', changeChannel RF RD st i f = some st' ∧ Keeps nR nPol nCh A D len st' := by
  obtain ⟨data, metaB⟩ := st
  obtain ⟨D', h1, h2, h3⟩ := h
  simp only at h1 h2
  obtain ⟨D2, data', e, k1, k2, k3⟩ := changeChannel_spec (RF := RF) (RD := RD) h1 metaB hi (by omega) f
  refine ⟨_, e, D2, k1, h2, ?_⟩
  intro r c p hr hc hp
  by_cases hji : c * nPol + p = i
  · have := h3 r c p hr hc hp
    rw [hji] at this ⊢
    rw [k2 r hr]
    exact this.scale f
  · rw [k3 r _ hji]
    exact h3 r c p hr hc hp

theorem Keeps.antenna {st : Block Cx × Buf Fl} (h : Keeps nR nPol nCh A D len st)
    (hb : nPol * nCh + nAnt * nPol ≤ len) {a p : Nat} (ha : a < nAnt) (hp : p < nPol) (f : Fl) :
    ∃ st', changeAntenna RF RD nPol nCh nAnt st a p f = some st' ∧ Keeps nR nPol nCh A D len st' := by
  obtain ⟨data, metaB⟩ := st
  obtain ⟨D', h1, h2, h3⟩ := h
  simp only at h1 h2
  obtain ⟨D2, data', e, k1, k2, k3⟩ := changeAntenna_spec (RF := RF) (RD := RD) h1 metaB ha hp
    (by omega) f
  refine ⟨_, e, D2, k1, h2, ?_⟩
  intro r c p' hr hc hp'
  by_cases hpp : p' = p
  · subst hpp
    rw [k2 r c hr hc]
    exact (h3 r c p' hr hc hp').scaleN f _
  · rw [k3 r c p' hp' hpp]
    exact h3 r c p' hr hc hp'

theorem Keeps.normalize {sq : Fl → Fl} (h : Holds nR (nPol * nCh) A D data) (hA : AntennasBelow nR nAnt A)
    (metaB : Buf Fl) (hb : nPol * nCh + nAnt * nPol ≤ metaB.len) :
    ∃ st, normalize RF RD sq nPol nCh nAnt (data, metaB) = some st ∧
      Keeps nR nPol nCh A D metaB.len st := by
  obtain ⟨meas, e1, l1, _⟩ := channelMeas_spec (RD := RD) h
  obtain ⟨D1, data1, meta1, e2, h1, h2, h3, _, _⟩ := normalizeChannels_spec (RF := RF) (RD := RD)
    (sq := sq) h meas l1 metaB (by omega)
  obtain ⟨st, e3, hk⟩ := forRange_inv nPol
    (fun p st => AF.normalizeAntennas RF RD sq nPol nCh nAnt p st) (data1, meta1)
    (fun _ st => Keeps nR nPol nCh A D metaB.len st)
    ⟨D1, h1, h3, fun r c p hr hc hp => by
      rw [h2 r _ hr (chan_lt hc hp)]
      exact Spoilt.divRms ⟨id, id⟩ _⟩ (by
      rintro p ⟨data2, meta2⟩ hp ⟨D2, k1, k2, k3⟩
      simp only at k1 k2
      obtain ⟨ant, ea, la⟩ := antennaRms_some (RD := RD) (sq := sq) k1 hA hp
      obtain ⟨D3, data3, meta3, e3, g1, g2, g3, g4, _, _⟩ := normalizeAntennas_spec
        (RF := RF) k1 hA hp la ea meta2 (by omega)
      refine ⟨(data3, meta3), e3, D3, g1, by simp only; omega, ?_⟩
      intro r c p' hr hc hp'
      by_cases hpp : p' = p
      · subst hpp
        rw [g2 r c hr hc]
        exact (k3 r c p' hr hc hp').scale _
      · rw [g3 r c p' hp' hpp]
        exact k3 r c p' hr hc hp')
  refine ⟨st, ?_, hk⟩
  unfold AF.normalize
  rw [e1, Option.bind_some, e2, Option.bind_some]
  exact e3

theorem Keeps.fit {maxLevel : Fl} (hA : AntennasBelow nR nAnt A) (hc0 : 0 < nCh)
    (hb : nPol * nCh + nAnt * nPol ≤ len) (fuel : Nat) {st : Block Cx × Buf Fl}
    (h : Keeps nR nPol nCh A D len st) :
    fitToMaximum RF RD nPol nCh nAnt maxLevel fuel st = some none ∨
      ∃ st', fitToMaximum RF RD nPol nCh nAnt maxLevel fuel st = some (some st') ∧
        Keeps nR nPol nCh A D len st' := by
  obtain ⟨st1, e1, h1⟩ := forRange_inv (nPol * nCh) (fun i st => (crossMax st.1 i).bind fun mx =>
    changeChannel RF RD st i (firstFactor RD maxLevel mx)) st (fun _ => Keeps nR nPol nCh A D len) h (by
      intro i st hi hk
      obtain ⟨D', q1, _⟩ := id hk
      obtain ⟨M, eM, _⟩ := crossMax_spec q1 hi
      rw [eM, Option.bind_some]
      exact hk.channel (by omega) hi _)
  have hstep : ∀ p, p < nPol → ∀ st, Keeps nR nPol nCh A D len st →
      ∃ r, fitStep RF RD nPol nCh nAnt p maxLevel st = some r ∧ Keeps nR nPol nCh A D len r.1 := by
    intro p hp st hk
    obtain ⟨data, metaB⟩ := st
    obtain ⟨D', q1, _⟩ := id hk
    rcases fitStep_spec (RF := RF) (RD := RD) (maxLevel := maxLevel) hc0 q1 hA hp metaB with
      e | ⟨a, M, ha, _, _, e⟩ | ⟨c, f, hcc, _, _, e⟩
    · exact ⟨_, e, hk⟩
    · obtain ⟨st', e', ht⟩ := hk.antenna (RF := RF) (RD := RD) hb ha hp _
      rw [e, e']
      exact ⟨_, rfl, ht⟩
    · obtain ⟨st', e', ht⟩ := hk.channel (RF := RF) (RD := RD) (by omega) (chan_lt hcc hp) f
      rw [e, e']
      exact ⟨_, rfl, ht⟩
  have hpols : ∀ p, p ≤ nPol → fitPols RF RD nPol nCh nAnt maxLevel fuel p st1 = some none ∨
      ∃ st', fitPols RF RD nPol nCh nAnt maxLevel fuel p st1 = some (some st') ∧
        Keeps nR nPol nCh A D len st' := by
    intro p
    induction p with
    | zero => exact fun _ => Or.inr ⟨st1, rfl, h1⟩
    | succ p ih =>
      intro hp
      unfold fitPols
      rcases ih (by omega) with e | ⟨st', e, hk⟩
      · rw [e]
        exact Or.inl rfl
      · rw [e, Option.bind_some]
        exact doWhile_partial _ (Keeps nR nPol nCh A D len) (hstep p (by omega)) fuel hk
  unfold fitToMaximum fitChannels
  rw [e1, Option.bind_some]
  exact hpols nPol (Nat.le_refl _)

/-- **C81**: whatever the data, the arithmetic and the square root, `encode` has no undefined behaviour
within any number of iterations; and when it ends, every row can be decoded, and every NaN or infinite
component, of cross- and autocorrelations, is decoded as NaN. -/
theorem af_nonfinite {sq : Fl → Fl} {e : Encoder} {b l : Nat → ℚ} {L : ℚ} (hT : Table e b l L)
    (dithered : Bool) (dith : Nat → Nat) (hc0 : 0 < nCh)
    (h : Holds nR (nPol * nCh) A D data) (hA : AntennasBelow nR nAnt A) (metaB : Buf Fl)
    (hb : metaDataCount nR nPol nCh nAnt ≤ metaB.len) (sym : Buf Nat)
    (hs : TimeBlock.symbolCount nR nPol nCh ≤ sym.len) (fuel : Nat) :
    encode RF RD sq (encFn RF e dithered) e.maxQuantity nPol nCh nAnt dith fuel data metaB sym =
        some none ∨
      ∃ metaB' sym', encode RF RD sq (encFn RF e dithered) e.maxQuantity nPol nCh nAnt dith fuel data
          metaB sym = some (some (metaB', sym')) ∧
        ∀ (dest : Block Cx) (r : Nat), r < nR → r < dest.len →
          ∃ dest', decode RF RD e.decode nPol nCh nAnt metaB' dest sym' r (A r).1 (A r).2 = some dest' ∧
            ((dest'.get r).antenna1, (dest'.get r).antenna2) = A r ∧
            (dest'.get r).vis.len = nPol * nCh ∧
            (∀ j, j ≠ r → dest'.get j = dest.get j) ∧
            ∀ c p, c < nCh → p < nPol →
              ((D r (c * nPol + p)).re.isFinite = false →
                ((dest'.get r).vis.get (c * nPol + p)).re = .nan) ∧
              ((D r (c * nPol + p)).im.isFinite = false →
                ((dest'.get r).vis.get (c * nPol + p)).im = .nan) := by
  have hb : nPol * nCh + nAnt * nPol ≤ metaB.len := by
    rw [metaDataCount, Nat.mul_add, Nat.mul_comm nPol nAnt] at hb
    exact hb
  have hs : nR * (nPol * nCh) * 2 ≤ sym.len := by
    have e : TimeBlock.symbolCount nR nPol nCh = nR * (nPol * nCh) * 2 := by unfold TimeBlock.symbolCount; ring
    rwa [e] at hs
  obtain ⟨st0, en, hk0⟩ := Keeps.normalize (RF := RF) (RD := RD) (sq := sq) h hA metaB hb
  unfold encode
  rw [en, Option.bind_some]
  rcases hk0.fit (RF := RF) (RD := RD) (maxLevel := e.maxQuantity) hA hc0 hb fuel with
    ef | ⟨⟨data1, meta1⟩, ef, D1, k1, k2, k3⟩
  · rw [ef]
    exact Or.inl rfl
  · right
    simp only at k1 k2
    obtain ⟨sym', e2, g1, g2, _, g4⟩ := quantise_total (RF := RF) (hT.total RF dithered)
      (dith := dith) k1 sym hs
    refine ⟨meta1, sym', by rw [ef, Option.bind_some]; simp only; rw [e2]; rfl, ?_⟩
    intro dest r hr hd
    have hrow : (r * (nPol * nCh) + nPol * nCh) * 2 ≤ nR * (nPol * nCh) * 2 := by
      have : (r + 1) * (nPol * nCh) ≤ nR * (nPol * nCh) := Nat.mul_le_mul_right _ hr
      rw [Nat.add_mul, Nat.one_mul] at this
      omega
    obtain ⟨dest', ed, _, d2, d3, d4, d5, d6⟩ := decode_spec (RF := RF) (RD := RD)
      (nPol := nPol) (nCh := nCh) hT meta1 sym' dest r (A r).1 (A r).2 hd (hA r hr).1 (hA r hr).2
      (by omega) (by omega) (fun j hj => g2 j (by omega))
    refine ⟨dest', ed, by rw [d3, d4], d5, d2, ?_⟩
    intro c p hc hp
    have hi := chan_lt (nPol := nPol) hc hp
    obtain ⟨s1, s2⟩ := g4 r _ hr hi
    obtain ⟨n1, n2⟩ := k3 r c p hr hc hp
    rw [d6 _ hi]
    constructor
    · intro hf
      simp only
      rw [hT.nonfinite RF dithered (cast_nonfinite (n1 hf)) _ s1]
      rfl
    · intro hf
      simp only
      rw [hT.nonfinite RF dithered (cast_nonfinite (n2 hf)) _ s2]
      rfl

/-- An autocorrelation with an infinite component and a cross-correlation with a NaN. -/
example : Holds 2 (1 * 1) (fun r => (0, r)) (fun r _ => if r = 0 then ⟨.inf true, .fin 0⟩ else ⟨.fin 1, .nan⟩)
      ⟨2, fun r => ⟨0, r, ⟨1, fun _ => if r = 0 then ⟨.inf true, .fin 0⟩ else ⟨.fin 1, .nan⟩⟩⟩⟩ ∧
    AntennasBelow 2 2 (fun r => (0, r)) ∧ (Fl.inf true).isFinite = false ∧ Fl.nan.isFinite = false :=
  ⟨⟨rfl, fun _ _ => rfl, fun _ _ => rfl, fun _ _ _ _ => rfl⟩, fun _ hr => ⟨by norm_num, hr⟩, rfl, rfl⟩

end Dysco.AF
