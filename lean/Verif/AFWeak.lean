import Verif.AFRange
import Verif.AFNan
import Verif.AFModerate

/-!
# C111: antenna-frequency normalisation removes weak antennas

An antenna whose RMS is estimated below 10^-5 of the largest gets the factor zero (aftimeblockencoder.cc:391-392), and then
nothing of its rows is left. The same holds for a channel with factor zero or NaN.
-/

namespace Dysco.AF
open TimeBlock Stochastic

variable {nR nPol nCh nAnt : Nat} {A : Nat → Nat × Nat} {D : Nat → Nat → Cx} {data : Block Cx} {len j : Nat} {RF RD : ℚ → Fl}

theorem Unusable.cast (h0 : RF 0 = .fin 0) {x : Fl} (h : Unusable x) : Unusable (Fl.cast RF x) := by
  rcases h with rfl | rfl
  · exact Or.inl h0
  · exact Or.inr rfl

theorem Unusable.divBy (h0 : RD 0 = .fin 0) {x : Fl} (h : Unusable x) (f : Fl) : Unusable (Fl.div RD x f) := by
  rcases h with rfl | rfl
  · cases f with
    | fin q =>
      by_cases hq : q = 0
      · right; simp [Fl.div, hq]
      · left; simp [Fl.div, hq, h0]
    | inf s => left; rfl
    | nan => right; rfl
  · exact Or.inr rfl

theorem Unusable.mul (h0 : RD 0 = .fin 0) {x : Fl} (h : Unusable x) (f : Fl) : Unusable (Fl.mul RD x f) := by
  rcases h with rfl | rfl
  · cases f with
    | fin q => left; simp [Fl.mul, h0]
    | inf s => right; simp [Fl.mul]
    | nan => right; rfl
  · exact Or.inr rfl

theorem Unusable.mul' (h0 : RD 0 = .fin 0) {x : Fl} (h : Unusable x) (f : Fl) : Unusable (Fl.mul RD f x) := by
  rcases h with rfl | rfl
  · cases f with
    | fin q => left; simp [Fl.mul, h0]
    | inf s => right; simp [Fl.mul]
    | nan => right; rfl
  · right
    cases f <;> rfl

/-- The stored factor number `j` is zero or NaN. -/
def Useless (nR nPol nCh : Nat) (A : Nat → Nat × Nat) (len j : Nat) (st : Block Cx × Buf Fl) : Prop :=
  (∃ D', Holds nR (nPol * nCh) A D' st.1) ∧ st.2.len = len ∧ Unusable (st.2.get j)

theorem Useless.channel (hF : RF 0 = .fin 0) (hD : RD 0 = .fin 0) {st : Block Cx × Buf Fl} (h : Useless nR nPol nCh A len j st)
    (hb : nPol * nCh ≤ len) {i : Nat} (hi : i < nPol * nCh) (f : Fl) :
    ∃ st', changeChannel RF RD st i f = some st' ∧ Useless nR nPol nCh A len j st' := by
  obtain ⟨data, metaB⟩ := st
  obtain ⟨⟨D', h1⟩, h2, h3⟩ := h
  simp only at h1 h2 h3
  obtain ⟨D2, data', e, k1, _, _⟩ := changeChannel_spec (RF := RF) (RD := RD) h1 metaB hi (by omega) f
  refine ⟨_, e, ⟨D2, k1⟩, h2, ?_⟩
  simp only
  split
  · rename_i hji
    rw [← hji]
    exact (h3.divBy hD f).cast hF
  · exact h3

theorem Useless.antenna (hF : RF 0 = .fin 0) (hD : RD 0 = .fin 0) {st : Block Cx × Buf Fl} (h : Useless nR nPol nCh A len j st)
    (hb : nPol * nCh + nAnt * nPol ≤ len) {a p : Nat} (ha : a < nAnt) (hp : p < nPol) (f : Fl) :
    ∃ st', changeAntenna RF RD nPol nCh nAnt st a p f = some st' ∧ Useless nR nPol nCh A len j st' := by
  obtain ⟨data, metaB⟩ := st
  obtain ⟨⟨D', h1⟩, h2, h3⟩ := h
  simp only at h1 h2 h3
  obtain ⟨D2, data', e, k1, _, _⟩ := changeAntenna_spec (RF := RF) (RD := RD) h1 metaB ha hp (by omega) f
  refine ⟨_, e, ⟨D2, k1⟩, h2, ?_⟩
  simp only
  split
  · rename_i hji
    rw [← hji]
    exact (h3.divBy hD f).cast hF
  · exact h3

theorem Useless.fit (hF : RF 0 = .fin 0) (hD : RD 0 = .fin 0) {maxLevel : Fl} (hA : AntennasBelow nR nAnt A) (hc0 : 0 < nCh)
    (hb : nPol * nCh + nAnt * nPol ≤ len) (fuel : Nat) {st : Block Cx × Buf Fl} (h : Useless nR nPol nCh A len j st) :
    fitToMaximum RF RD nPol nCh nAnt maxLevel fuel st = some none ∨
      ∃ st', fitToMaximum RF RD nPol nCh nAnt maxLevel fuel st = some (some st') ∧ Useless nR nPol nCh A len j st' := by
  obtain ⟨st1, e1, h1⟩ := forRange_inv (nPol * nCh) (fun i st => (crossMax st.1 i).bind fun mx =>
    changeChannel RF RD st i (firstFactor RD maxLevel mx)) st (fun _ => Useless nR nPol nCh A len j) h (by
      intro i st hi hk
      obtain ⟨⟨D', q1⟩, _⟩ := id hk
      obtain ⟨M, eM, _⟩ := crossMax_spec q1 hi
      rw [eM, Option.bind_some]
      exact hk.channel hF hD (by omega) hi _)
  have hstep : ∀ p, p < nPol → ∀ st, Useless nR nPol nCh A len j st →
      ∃ r, fitStep RF RD nPol nCh nAnt p maxLevel st = some r ∧ Useless nR nPol nCh A len j r.1 := by
    intro p hp st hk
    obtain ⟨data, metaB⟩ := st
    obtain ⟨⟨D', q1⟩, _⟩ := id hk
    rcases fitStep_spec (RF := RF) (RD := RD) (maxLevel := maxLevel) hc0 q1 hA hp metaB with
      e | ⟨a, M, ha, _, _, e⟩ | ⟨c, f, hcc, _, _, e⟩
    · exact ⟨_, e, hk⟩
    · obtain ⟨st', e', ht⟩ := hk.antenna hF hD hb ha hp _
      rw [e, e']
      exact ⟨_, rfl, ht⟩
    · obtain ⟨st', e', ht⟩ := hk.channel hF hD (by omega) (chan_lt hcc hp) f
      rw [e, e']
      exact ⟨_, rfl, ht⟩
  have hpols : ∀ p, p ≤ nPol → fitPols RF RD nPol nCh nAnt maxLevel fuel p st1 = some none ∨
      ∃ st', fitPols RF RD nPol nCh nAnt maxLevel fuel p st1 = some (some st') ∧ Useless nR nPol nCh A len j st' := by
    intro p
    induction p with
    | zero => exact fun _ => Or.inr ⟨st1, rfl, h1⟩
    | succ p ih =>
      intro hp
      unfold fitPols
      rcases ih (by omega) with e | ⟨st', e, hk⟩
      · rw [e]
        exact Or.inl rfl
      · rw [e, Option.bind_some]
        exact doWhile_partial _ (Useless nR nPol nCh A len j) (hstep p (by omega)) fuel hk
  unfold fitToMaximum fitChannels
  rw [e1, Option.bind_some]
  exact hpols nPol (Nat.le_refl _)

/-- **C111**: when the normalisation gives an antenna the factor zero for a polarisation, or a channel the factor zero or NaN, and
the encoder ends, then that factor in the file is zero or NaN, and what is decoded for the samples of that antenna or channel is zero
or NaN, whatever they were. -/
theorem af_unusable {sq : Fl → Fl} {e : Encoder} {b l : Nat → ℚ} {L : ℚ} (hT : Table e b l L) (hF : RF 0 = .fin 0)
    (hD : RD 0 = .fin 0) (dithered : Bool) (dith : Nat → Nat) (hc0 : 0 < nCh)
    (hA : AntennasBelow nR nAnt A) (h : Holds nR (nPol * nCh) A D data) (metaB : Buf Fl)
    (hb : metaDataCount nR nPol nCh nAnt ≤ metaB.len) (sym : Buf Nat)
    (hs : TimeBlock.symbolCount nR nPol nCh ≤ sym.len) (fuel : Nat) {metaB' : Buf Fl} {sym' : Buf Nat}
    (he : encode RF RD sq (encFn RF e dithered) e.maxQuantity nPol nCh nAnt dith fuel data metaB sym = some (some (metaB', sym')))
    {st : Block Cx × Buf Fl} (hst : normalize RF RD sq nPol nCh nAnt (data, metaB) = some st) :
    (∀ j, j < metaDataCount nR nPol nCh nAnt → (st.2.get j = .fin 0 ∨ st.2.get j = .nan) →
      (metaB'.get j = .fin 0 ∨ metaB'.get j = .nan)) ∧
    ∀ (dest : Block Cx) (r : Nat), r < nR → r < dest.len →
      ∃ dest', decode RF RD e.decode nPol nCh nAnt metaB' dest sym' r (A r).1 (A r).2 = some dest' ∧
        ∀ c p, c < nCh → p < nPol →
          ((∃ a, (a = (A r).1 ∨ a = (A r).2) ∧ (st.2.get (nPol * nCh + (nAnt * p + a)) = .fin 0 ∨
              st.2.get (nPol * nCh + (nAnt * p + a)) = .nan)) ∨
            (st.2.get (c * nPol + p) = .fin 0 ∨ st.2.get (c * nPol + p) = .nan)) →
          (((dest'.get r).vis.get (c * nPol + p)).re = .fin 0 ∨ ((dest'.get r).vis.get (c * nPol + p)).re = .nan) ∧
          (((dest'.get r).vis.get (c * nPol + p)).im = .fin 0 ∨ ((dest'.get r).vis.get (c * nPol + p)).im = .nan) := by
  have hb : nPol * nCh + nAnt * nPol ≤ metaB.len := by
    rw [metaDataCount, Nat.mul_add, Nat.mul_comm nPol nAnt] at hb
    exact hb
  have hs : nR * (nPol * nCh) * 2 ≤ sym.len := by
    have e : TimeBlock.symbolCount nR nPol nCh = nR * (nPol * nCh) * 2 := by unfold TimeBlock.symbolCount; ring
    rwa [e] at hs
  obtain ⟨st0, en, D0, k0, l0, _⟩ := Keeps.normalize (RF := RF) (RD := RD) (sq := sq) h hA metaB hb
  obtain rfl : st0 = st := by rw [en] at hst; exact Option.some.inj hst
  unfold encode at he
  rw [en, Option.bind_some] at he
  have hk0 : Keeps nR nPol nCh A D0 metaB.len st0 := ⟨D0, k0, l0, fun _ _ _ _ _ _ => ⟨id, id⟩⟩
  rcases hk0.fit (RF := RF) (RD := RD) (maxLevel := e.maxQuantity) hA hc0 hb fuel with ef | ⟨⟨data1, meta1⟩, ef, D1, k1, k2, _⟩
  · rw [ef] at he
    simp at he
  simp only at k1 k2
  obtain ⟨sym2, e2, g1, g2, _, g4⟩ := quantise_total (RF := RF) (hT.total RF dithered) (dith := dith) k1 sym hs
  rw [ef, Option.bind_some] at he
  simp only at he
  rw [e2] at he
  obtain ⟨rfl, rfl⟩ : meta1 = metaB' ∧ sym2 = sym' := by simpa using he
  have key : ∀ j, Unusable (st0.2.get j) → Unusable (meta1.get j) := by
    intro j hj
    rcases Useless.fit hF hD (maxLevel := e.maxQuantity) hA hc0 hb fuel (⟨⟨D0, k0⟩, l0, hj⟩ : Useless nR nPol nCh A metaB.len j st0) with
      ef' | ⟨st', ef', _, _, hu⟩
    · rw [ef] at ef'
      simp at ef'
    · rw [ef] at ef'
      obtain rfl := Option.some.inj (Option.some.inj ef')
      exact hu
  refine ⟨fun j _ hj => key j hj, ?_⟩
  intro dest r hr hd
  have hrow : (r * (nPol * nCh) + nPol * nCh) * 2 ≤ nR * (nPol * nCh) * 2 := by
    have : (r + 1) * (nPol * nCh) ≤ nR * (nPol * nCh) := Nat.mul_le_mul_right _ hr
    rw [Nat.add_mul, Nat.one_mul] at this
    omega
  obtain ⟨dest', ed, _, _, _, _, _, d6⟩ := decode_spec (RF := RF) (RD := RD)
    (nPol := nPol) (nCh := nCh) hT meta1 sym2 dest r (A r).1 (A r).2 hd (hA r hr).1 (hA r hr).2
    (by omega) (by omega) (fun j hj => g2 j (by omega))
  refine ⟨dest', ed, ?_⟩
  intro c p hc hp hu
  have hi := chan_lt (nPol := nPol) hc hp
  have hf : Unusable (Fl.mul RD (meta1.get (c * nPol + p)) (Fl.mul RD (meta1.get (nPol * nCh + (nAnt * p + (A r).1)))
      (meta1.get (nPol * nCh + (nAnt * p + (A r).2))))) := by
    rcases hu with ⟨a, ha, hz⟩ | hz
    · have hk := key _ hz
      rcases ha with rfl | rfl
      · exact (hk.mul hD _).mul' hD _
      · exact (hk.mul' hD _).mul' hD _
    · exact (key _ hz).mul hD _
  rw [d6 _ hi, flat_mod hp]
  exact ⟨(hf.mul' hD _).cast hF, (hf.mul' hD _).cast hF⟩

/-! ## A block with a weak antenna -/

/-- Antennas of the rows. -/
def weakPair : Nat → Nat × Nat
  | 0 => (0, 0)
  | 1 => (0, 1)
  | 2 => (0, 2)
  | _ => (1, 2)

/-- The samples: baselines with the third antenna are 2^-30 times the other baseline. -/
def weakVis : Nat → Nat → Cx
  | 0, _ => ⟨.fin 0, .fin 0⟩
  | 1, _ => ⟨.fin 1, .fin 1⟩
  | _, _ => ⟨.fin (1 / 1073741824), .fin (1 / 1073741824)⟩

/-- The block with these values. Not in the code. -/
def weakBlock : Block Cx := ⟨4, fun r => ⟨(weakPair r).1, (weakPair r).2, ⟨1, weakVis r⟩⟩⟩

theorem weak_normalize : (match normalize Fl.r32 Fl.r64 coarseSqrt 1 1 3 (weakBlock, ⟨4, fun _ => .nan⟩) with
    | some st => decide (st.2.get 3 = .fin 0)
    | none => false) = true := by decide +kernel

theorem weak_holds : Holds 4 (1 * 1) weakPair weakVis weakBlock :=
  ⟨rfl, fun _ _ => rfl, fun _ _ => rfl, fun _ _ _ _ => rfl⟩

theorem weak_below : AntennasBelow 4 3 weakPair := by
  intro r hr
  have : r = 0 ∨ r = 1 ∨ r = 2 ∨ r = 3 := by omega
  rcases this with rfl | rfl | rfl | rfl <;> decide

theorem weak_moderate : Moderate 4 (1 * 1) weakPair weakVis := by
  intro r i hr hi
  have : r = 0 ∨ r = 1 ∨ r = 2 ∨ r = 3 := by omega
  refine ⟨?_, ?_⟩
  · intro a b hab
    rcases this with rfl | rfl | rfl | rfl
    all_goals
      simp only [weakVis, Cx.mk.injEq, Fl.fin.injEq] at hab
      obtain ⟨rfl, rfl⟩ := hab
      norm_num
  · intro _ a hab
    rcases this with rfl | rfl | rfl | rfl <;> simp [weakVis] at hab

/-- **C111**, the loss: a block of three antennas with baselines of 1, 2^-30 and 2^-30. Whatever the quantiser, the encoder ends, and
the two baselines of the weak antenna are decoded as zero or NaN. (On this block the square root is only taken of powers of four.) -/
theorem weak_antenna_lost {e : Encoder} {b l : Nat → ℚ} {L : ℚ} (hT : Table e b l L) (hLr : Fl.Repr Fl.binary32 L)
    (dithered : Bool) (dith : Nat → Nat) :
    ∃ (N : Nat) (metaB' : Buf Fl) (sym' : Buf Nat),
      (∀ fuel, N ≤ fuel → encode Fl.r32 Fl.r64 coarseSqrt (encFn Fl.r32 e dithered) e.maxQuantity 1 1 3 dith fuel weakBlock
        ⟨4, fun _ => .nan⟩ ⟨8, fun _ => 0⟩ = some (some (metaB', sym'))) ∧
      ∀ (dest : Block Cx) (r : Nat), r = 2 ∨ r = 3 → r < dest.len →
        ∃ dest', decode Fl.r32 Fl.r64 e.decode 1 1 3 metaB' dest sym' r (weakPair r).1 2 = some dest' ∧
          (((dest'.get r).vis.get 0).re = .fin 0 ∨ ((dest'.get r).vis.get 0).re = .nan) ∧
          (((dest'.get r).vis.get 0).im = .fin 0 ∨ ((dest'.get r).vis.get 0).im = .nan) := by
  obtain ⟨N, metaB', sym', henc⟩ := af_ends coarseSqrt_mono hT hLr dithered dith (by decide) (by decide) weak_below (by decide)
    (by decide) (by decide) weak_holds weak_moderate ⟨4, fun _ => .nan⟩ (by decide) ⟨8, fun _ => 0⟩ (by decide)
  refine ⟨N, metaB', sym', henc, ?_⟩
  intro dest r hr hd
  have hw := weak_normalize
  cases hst : normalize Fl.r32 Fl.r64 coarseSqrt 1 1 3 (weakBlock, ⟨4, fun _ => .nan⟩) with
  | none => rw [hst] at hw; simp at hw
  | some st =>
    rw [hst] at hw
    simp only [decide_eq_true_eq] at hw
    have hA2 : (weakPair r).2 = 2 := by rcases hr with rfl | rfl <;> rfl
    obtain ⟨_, hdec⟩ := af_unusable hT Fl.r32_zero Fl.r64_zero dithered dith (by decide) weak_below weak_holds ⟨4, fun _ => .nan⟩
      (by decide) ⟨8, fun _ => 0⟩ (by decide) N (henc N (Nat.le_refl _)) hst
    obtain ⟨dest', ed, h⟩ := hdec dest r (by omega) hd
    rw [hA2] at ed
    refine ⟨dest', ed, h 0 0 (by decide) (by decide) (Or.inl ⟨2, Or.inr hA2.symm, Or.inl ?_⟩)⟩
    exact hw

/-- A table that meets the hypotheses; and the samples that are lost are not zero. -/
example : (∃ b l, Table Row.smallTable b l 1) ∧ Fl.Repr Fl.binary32 (1 : ℚ) ∧
    (weakVis 2 0).re ≠ .fin 0 ∧ (weakVis 3 0).im ≠ .fin 0 :=
  ⟨⟨_, _, Row.smallTable_ok⟩, by simpa using repr32_pow (k := 0) (by norm_num), by decide +kernel, by decide +kernel⟩

end Dysco.AF
