import Verif.MeanRF
import Verif.PowerAFProps
import Verif.EndAF

/-!
# C143: dithering makes antenna-frequency normalised data unbiased

The fit does not depend on the dither values, so that the factors are the same for all of them.
-/

namespace Dysco.AF
open TimeBlock Stochastic

variable {nR nPol nCh nAnt : Nat} {A : Nat → Nat × Nat} {D : Nat → Nat → Cx} {data : Block Cx}

/-- What `encode` gives to the quantiser, and the factors it stores, for all dither values. `N` is the number of iterations
that the fit needs. -/
theorem af_parts {sq : Fl → Fl} (hsq : SqrtMono sq) {e : Encoder} {b l : Nat → ℚ} {L : ℚ} (hT : Table e b l L)
    (hLr : Fl.Repr Fl.binary32 L) (hc0 : 0 < nCh) (hR : 0 < nR)
    (h : Holds nR (nPol * nCh) A D data) (hF : FloatBlock nR (nPol * nCh) D)
    (hA : AntennasBelow nR nAnt A) (hn : nAnt ≤ 2 ^ 14) (hrows : nR ≤ 2 ^ 24) (hsize : nR * nCh ≤ 2 ^ 24)
    (hM : Moderate nR (nPol * nCh) A D) (metaB : Buf Fl) (hb : nPol * nCh + nAnt * nPol ≤ metaB.len)
    (sym : Buf Nat) (hs : nR * (nPol * nCh) * 2 ≤ sym.len) :
    ∃ (N : Nat) (metaB' : Buf Fl) (Y : Nat → Nat → Cx),
      (∀ dith, ∃ sym', (∀ fuel, N ≤ fuel → encode Fl.r32 Fl.r64 sq (encFn Fl.r32 e true) e.maxQuantity nPol nCh nAnt
          dith fuel data metaB sym = some (some (metaB', sym'))) ∧
        (∀ j, j < nR * (nPol * nCh) * 2 → sym'.get j < e.quantCount) ∧
        ∀ r i, r < nR → i < nPol * nCh →
          e.encodeDither Fl.r32 (Fl.cast Fl.r32 (Y r i).re) (dith ((r * (nPol * nCh) + i) * 2)) =
            some (sym'.get ((r * (nPol * nCh) + i) * 2)) ∧
          e.encodeDither Fl.r32 (Fl.cast Fl.r32 (Y r i).im) (dith ((r * (nPol * nCh) + i) * 2 + 1)) =
            some (sym'.get ((r * (nPol * nCh) + i) * 2 + 1))) ∧
      (∀ dith fuel out, encode Fl.r32 Fl.r64 sq (encFn Fl.r32 e true) e.maxQuantity nPol nCh nAnt
        dith fuel data metaB sym = some (some out) → N ≤ fuel) ∧
      (N ≤ 2000000 → ∀ r, r < nR → Cross A r → ∀ c p m g g1 g2, c < nCh → p < nPol →
        Counted (D r (c * nPol + p)) m →
        metaB'.get (c * nPol + p) = .fin g → (2 : ℚ) ^ (-126 : ℤ) ≤ g →
        metaB'.get (nPol * nCh + (nAnt * p + (A r).1)) = .fin g1 → (2 : ℚ) ^ (-126 : ℤ) ≤ g1 →
        metaB'.get (nPol * nCh + (nAnt * p + (A r).2)) = .fin g2 → (2 : ℚ) ^ (-126 : ℤ) ≤ g2 →
        (g ≤ 2 ^ (128 : ℤ) ∧ g1 ≤ 2 ^ (128 : ℤ) ∧ g2 ≤ 2 ^ (128 : ℤ)) ∧
        ∀ part a, (part = Cx.re ∨ part = Cx.im) → part (D r (c * nPol + p)) = .fin a →
          ∃ u, Fl.cast Fl.r32 (part (Y r (c * nPol + p))) = .fin (Fl.rnd Fl.binary32 u) ∧ |Fl.rnd Fl.binary32 u| ≤ L ∧
            |u * (g * (g1 * g2)) - a| ≤ |a| * drift (4 + N)) := by
  have hL := hT.pos
  have hL2 : L < 2 ^ (128 : ℤ) := lt_of_le_of_lt hT.le (by norm_num [fltMax])
  obtain ⟨st0, en0, ln0, D0, k0, hrange⟩ := normalize_range hsq hA hR hn hrows hsize h hM metaB hb
  obtain ⟨st0', en, htrack⟩ := Track.normalize (S := fun i => Normal (st0.2.get i)) (sq := sq) hF h hA hR
    metaB hb
  rw [en0] at en
  obtain rfl := Option.some.inj en
  have hch := fun i hi => channel_factors hsq hA hR hrows h hM metaB hb en0 (i := i) hi
  obtain ⟨data0, meta0⟩ := st0
  simp only at k0 htrack ln0 hch
  obtain ⟨N0, Y, st1, ef, y1, y2, y3⟩ := af_fit_r64 (RF := Fl.r32) hL hLr hL2 hA hc0 k0 meta0 (by omega)
    (fun r i m hr hi hcr hm => hrange r i m hr hi hcr hm)
  have hex : ∃ N, ∃ st, fitToMaximum Fl.r32 Fl.r64 nPol nCh nAnt (.fin L) N (data0, meta0) =
      some (some st) := ⟨N0, st1, ef N0 (Nat.le_refl _)⟩
  classical
  obtain ⟨N, ⟨st1', eN⟩, hmin⟩ : ∃ N, (∃ st, fitToMaximum Fl.r32 Fl.r64 nPol nCh nAnt (.fin L) N
      (data0, meta0) = some (some st)) ∧ ∀ fuel st, fitToMaximum Fl.r32 Fl.r64 nPol nCh nAnt (.fin L) fuel
      (data0, meta0) = some (some st) → N ≤ fuel :=
    ⟨Nat.find hex, Nat.find_spec hex, fun fuel st he => Nat.find_min' hex ⟨st, he⟩⟩
  obtain rfl : st1 = st1' := by
    have h1 := fitToMaximum_more (le_max_left N N0) eN
    rw [ef _ (le_max_right N N0)] at h1
    exact Option.some.inj (Option.some.inj h1)
  obtain ⟨data1, meta1⟩ := st1
  simp only at y1 y2
  have hmq := hT.maxQuantity
  refine ⟨N, meta1, Y, fun dith => ?_, fun dith fuel out he => ?_, ?_⟩
  · obtain ⟨sym', e2, g1, g2, _, g4⟩ := quantise_total (RF := Fl.r32) (hT.total Fl.r32 true)
      (dith := dith) y1 sym hs
    refine ⟨sym', fun fuel hf => ?_, g2, fun r i hr hi => ?_⟩
    · unfold encode
      rw [en0, Option.bind_some, hmq, fitToMaximum_more hf eN, Option.bind_some]
      simp only
      rw [e2]
      rfl
    · have := g4 r i hr hi
      simpa [encFn] using this
  · unfold encode at he
    rw [en0, Option.bind_some, hmq] at he
    cases hq : fitToMaximum Fl.r32 Fl.r64 nPol nCh nAnt (.fin L) fuel (data0, meta0) with
    | none => rw [hq] at he; simp at he
    | some o =>
      cases o with
      | none => rw [hq] at he; simp at he
      | some st => exact hmin fuel st hq
  · intro hN r hr hcr c p m q q1 q2 hc hp hm mq lq m1 l1 m2 l2
    have hi := chan_lt (nPol := nPol) hc hp
    obtain ⟨q0, m0, l0⟩ : ∃ q0, meta0.get (c * nPol + p) = .fin q0 ∧ (2 : ℚ) ^ (-126 : ℤ) ≤ q0 := by
      rcases hch _ hi with hu | h0
      · exfalso
        obtain ⟨N1, _, st', ef', _, _, ⟨_, _, hu'⟩, _⟩ := fitToMaximum_spec (RF := Fl.r32)
          (inRange_r64 (Fl.repr32_ge hLr hT.pos) hL2) hA hc0
          (unusable_kept (nR := nR) (A := A) (nAnt := nAnt) hi hb) k0 meta0 (by omega)
          (fun r i hr hi hcr m hm => hrange r i m hr hi hcr hm) ⟨⟨D0, k0⟩, ln0, hu⟩
        have h1 := fitToMaximum_more (le_max_left N N1) eN
        rw [ef' _ (le_max_right _ _)] at h1
        rw [Option.some.inj (Option.some.inj h1)] at hu'
        simp only at hu'
        rw [mq] at hu'
        rcases hu' with hu' | hu'
        · rw [Fl.fin.inj hu'] at lq
          exact absurd lq (not_le.mpr (Fl.zp_pos _))
        · simp at hu'
      · exact h0
    obtain ⟨D1, t1, t2, t3, t4⟩ := htrack.fit hF hA hc0 (by omega) (fun i _ hs => hs) N (by omega) eN
    simp only at t1 t2 t3 t4
    obtain ⟨c1, c2⟩ := t4 r c p hr hc hp hcr ⟨q0, m0, l0⟩
    have eY : D1 r (c * nPol + p) = Y r (c * nPol + p) := by
      rw [← t1.vis r _ hr hi, y1.vis r _ hr hi]
    rw [eY] at c1 c2
    have i1 := antIndex_lt (hA r hr).1 hp
    have i2 := antIndex_lt (hA r hr).2 hp
    obtain ⟨m', hm'⟩ : ∃ m', Counted (Y r (c * nPol + p)) m' := by
      obtain ⟨x, ex, hb'⟩ := hm
      obtain ⟨u, eu, _⟩ := c1.2.2 q q1 q2 x mq m1 m2 lq l1 l2 ex
      rcases hb' with ⟨y, ey, _⟩ | ⟨ey, _⟩
      · obtain ⟨v, ev, _⟩ := c2.2.2 q q1 q2 y mq m1 m2 lq l1 l2 ey
        exact ⟨_, u, eu, Or.inl ⟨v, ev, rfl⟩⟩
      · exact ⟨_, u, eu, Or.inr ⟨c2.1 ey, rfl⟩⟩
    have hcell := y3 r _ m' hr hi hcr hm'
    refine ⟨⟨le_trans (le_abs_self _) (t3 _ (by omega) q mq).2.le, le_trans (le_abs_self _) (t3 _ (by omega) q1 m1).2.le,
      le_trans (le_abs_self _) (t3 _ (by omega) q2 m2).2.le⟩, ?_⟩
    have key : ∀ (w z : Fl) (a : ℚ), Comp (4 + N) (meta1.get (c * nPol + p))
        (meta1.get (nPol * nCh + (nAnt * p + (A r).1))) (meta1.get (nPol * nCh + (nAnt * p + (A r).2))) w z →
        w = .fin a → (∀ u, z = .fin u → ∃ y, Fl.cast Fl.r32 (.fin u) = .fin y ∧ |y| ≤ L) →
        ∃ u, Fl.cast Fl.r32 z = .fin (Fl.rnd Fl.binary32 u) ∧ |Fl.rnd Fl.binary32 u| ≤ L ∧
            |u * (q * (q1 * q2)) - a| ≤ |a| * drift (4 + N) := by
      intro w z a hcomp hw hz
      obtain ⟨u, eu, hu⟩ := hcomp.2.2 q q1 q2 a mq m1 m2 lq l1 l2 hw
      obtain ⟨y, ey, hy⟩ := hz u eu
      have ery : y = Fl.rnd Fl.binary32 u := by
        simp only [Fl.cast, Fl.r32, Fl.round] at ey
        split at ey
        · exact (Fl.fin.inj ey).symm
        · simp at ey
      subst ery
      exact ⟨u, by rw [eu, ey], hy, hu⟩
    intro part a hpart ha
    rcases hpart with rfl | rfl
    · exact key _ _ a c1 ha (fun u hu => hcell u (Or.inl hu))
    · exact key _ _ a c2 ha (fun u hu => hcell u (Or.inr hu))

/-- The bound on the distance of the mean, for the largest step `g` of the quantiser, the product `G` of the stored factors
and `N` iterations of the fit. Not in the code. -/
def meanBound (g L G a : ℚ) (N : Nat) : ℚ :=
  g / 2 ^ 22 * G + L * G * (1 / 1600000) + |a| * ((N + 6) * (1 / 12000000)) + (1 + G) * 2 ^ (-148 : ℤ)

/-- From the mean of the levels `V` to the mean of what is read `Z`. -/
theorem mean_comp {a u x V Z G L g : ℚ} {N : Nat} (hN : N ≤ 2000000) (hG : 0 < G) (hx : x = Fl.rnd Fl.binary32 u)
    (hu : |u * G - a| ≤ |a| * drift (4 + N)) (hV : |V - x| ≤ g / 2 ^ 22)
    (hZ : |Z - V * G| ≤ L * G * (1 / 1600000) + (1 + G) * 2 ^ (-149 : ℤ)) : |Z - a| ≤ meanBound g L G a N := by
  have e24 : (2 : ℚ) ^ (-(Fl.binary32.p : ℤ)) = 1 / 16777216 := by norm_num [Fl.binary32]
  have e150 : Fl.binary32.emin - 1 = -150 := by norm_num [Fl.binary32]
  have hd := drift_le (k := 4 + N) (by omega)
  have hd2 := drift_half (k := 4 + N) (by omega)
  push_cast at hd
  have hN0 : (0 : ℚ) ≤ N := Nat.cast_nonneg N
  have ha0 := abs_nonneg a
  have gU := Fl.rnd_gen_err (f := Fl.binary32) u
  rw [e24, e150, ← hx] at gU
  have h1 : |V * G - u * G| ≤ g / 2 ^ 22 * G + |u| * G * (1 / 16777216) + G * 2 ^ (-150 : ℤ) := by
    have := abs_add_le (V - x) (x - u)
    rw [sub_add_sub_cancel] at this
    rw [← sub_mul, abs_mul, abs_of_pos hG]
    calc |V - u| * G ≤ (g / 2 ^ 22 + (|u| * (1 / 16777216) + 2 ^ (-150 : ℤ))) * G :=
          mul_le_mul_of_nonneg_right (by linarith) hG.le
      _ = _ := by ring
  have hxd : |a| * drift (4 + N) ≤ |a| * ((4 + N) * (1 / 12500000)) := mul_le_mul_of_nonneg_left hd ha0
  have hxd2 : |a| * drift (4 + N) ≤ |a| * (1 / 2) := mul_le_mul_of_nonneg_left hd2 ha0
  have huG : |u| * G ≤ |a| * (3 / 2) := by
    have t3 := abs_add_le (u * G - a) a
    rw [sub_add_cancel, abs_mul u, abs_of_pos hG] at t3
    linarith
  have t1 := abs_add_le (Z - V * G) (V * G - u * G)
  have t2 := abs_add_le (Z - u * G) (u * G - a)
  rw [sub_add_sub_cancel] at t1 t2
  have hu0 := Fl.zp_pos (-150)
  have e149 : (2 : ℚ) ^ (-149 : ℤ) = 2 ^ (-150 : ℤ) * 2 := by norm_num
  have e148 : (2 : ℚ) ^ (-148 : ℤ) = 2 ^ (-150 : ℤ) * 4 := by norm_num
  have hGu := mul_pos hG hu0
  have exN : |a| * ((N + 6) * (1 / 12000000)) = |a| * N * (1 / 12000000) + |a| * (6 / 12000000) := by
    ring
  have exN' : |a| * ((4 + N) * (1 / 12500000)) = |a| * N * (1 / 12500000) + |a| * (4 / 12500000) := by
    ring
  have haN := mul_nonneg ha0 hN0
  unfold meanBound
  rw [exN, e148, show (1 + G) * (2 ^ (-150 : ℤ) * 4) = 4 * 2 ^ (-150 : ℤ) + 4 * (G * 2 ^ (-150 : ℤ)) by ring]
  rw [e149, show (1 + G) * (2 ^ (-150 : ℤ) * 2) = 2 * 2 ^ (-150 : ℤ) + 2 * (G * 2 ^ (-150 : ℤ)) by ring] at hZ
  rw [exN'] at hxd
  generalize G * (2 : ℚ) ^ (-150 : ℤ) = v1 at *
  generalize (2 : ℚ) ^ (-150 : ℤ) = v at *
  generalize |a| * (N : ℚ) = v3 at *
  generalize g / 2 ^ 22 * G = v4 at *
  generalize L * G = v5 at *
  linarith

end Dysco.AF

namespace Dysco.Layout
open BytePacker TimeBlock Stochastic Twister

variable {nR nPol nCh nAnt bits : Nat} {A : Nat → Nat × Nat} {D : Nat → Nat → Cx} {data : Block Cx}

/-- As `ReadBack`, with antenna-frequency normalisation and a fit that needs `N` iterations. Not in the code. -/
def ReadBackAF (sq : Fl → Fl) (e : Encoder) (nR nPol nCh nAnt bits N : Nat) (A : Nat → Nat × Nat) (data : Block Cx)
    (packed : Mem 8) (unpacked out : Buf Nat) (dflt : DataRow Cx) (rows : Block Cx) (j r i : Nat)
    (part : Cx → Fl) (y : Nat → ℚ) : Prop :=
  ∀ dith : Nat → Nat, dith j < 2 ^ 31 → ∀ fuel, N ≤ fuel → ∃ d x,
    writeBlock (encData .af sq e nPol nCh nAnt dith fuel data) bits (nPol * (nCh + nAnt)) (symbolCount nR nPol nCh) packed
      unpacked = .ok d ∧
    readBlock (decData .af e nPol nCh nAnt A) bits (nPol * (nCh + nAnt)) (symbolCount nR nPol nCh) nR dflt d out rows = .ok x ∧
    part ((x.get r).vis.get i) = .fin (y (dith j))

/-- **C143** A block of moderate data is written with antenna-frequency normalisation, the default, and read back. `N` is the
number of iterations that the fit needs; it and the stored factors `fs` do not depend on the dither values. `j` is the symbol
of one part of one sample of a cross-correlation, and `G` is the product of its factors. What is read for that part depends
only on the dither value of `j`, and is within the bound of C83. Its mean over all dither values is the value that was written,
up to `2^-22` of the largest step of the quantiser in units of the factors and the rounding of C83. The exception are negative
values beyond the lowest level, which are always read as that level. -/
theorem af_mean {sq : Fl → Fl} (hsq : AF.SqrtMono sq) {e : Encoder} {b l : Nat → ℚ} {L g : ℚ} (hT : Table e b l L)
    (hf : FloatLevels e.n l) (hg : Row.Gaps e.n l g) (hlo : -(5 / 4 * L) ≤ l 0) (hneg : l 0 < 0)
    (hb : Supported bits) (hq : e.quantCount = 2 ^ bits) (hc0 : 0 < nCh) (hR : 0 < nR)
    (h : Holds nR (nPol * nCh) A D data) (hF : AF.FloatBlock nR (nPol * nCh) D)
    (hA : AF.AntennasBelow nR nAnt A) (hn : nAnt ≤ 2 ^ 14) (hrows : nR ≤ 2 ^ 24) (hsize : nR * nCh ≤ 2 ^ 24)
    (hM : AF.Moderate nR (nPol * nCh) A D)
    {packed : Mem 8} {unpacked out : Buf Nat} (hp : packed.len = blockSize (nPol * (nCh + nAnt)) (symbolCount nR nPol nCh) bits)
    (hu : unpacked.len = symbolCount nR nPol nCh) (ho : out.len = symbolCount nR nPol nCh)
    (dflt : DataRow Cx) (rows : Block Cx) :
    ∃ (N : Nat) (fs : Buf Fl),
      (∀ dith fuel, N ≤ fuel ↔ ∃ d, writeBlock (encData .af sq e nPol nCh nAnt dith fuel data) bits (nPol * (nCh + nAnt))
        (symbolCount nR nPol nCh) packed unpacked = .ok d) ∧
      (∀ dith fuel d, writeBlock (encData .af sq e nPol nCh nAnt dith fuel data) bits (nPol * (nCh + nAnt))
        (symbolCount nR nPol nCh) packed unpacked = .ok d →
        ∀ k, k < nPol * (nCh + nAnt) → (metaView (nPol * (nCh + nAnt)) d).get k = fs.get k) ∧
      (N ≤ 2000000 → ∀ r c p m G a, r < nR → (A r).1 ≠ (A r).2 → c < nCh → p < nPol → Counted (D r (c * nPol + p)) m →
        End.Factors fs L nPol nCh nAnt c p (A r) G → ∀ part j,
        (part = Cx.re ∧ j = (r * (nPol * nCh) + (c * nPol + p)) * 2 ∨
          part = Cx.im ∧ j = (r * (nPol * nCh) + (c * nPol + p)) * 2 + 1) → part (D r (c * nPol + p)) = .fin a →
        ∃ y, ReadBackAF sq e nR nPol nCh nAnt bits N A data packed unpacked out dflt rows j r (c * nPol + p) part y ∧
          (∀ m, m < 2 ^ 31 → |y m - a| ≤ AF.afBound (max g (l 0 + L)) G a N) ∧
          (|Row.mean y - a| ≤ AF.meanBound g L G a N ∨
            a < 0 ∧ (∀ m, m < 2 ^ 31 → y m = y 0) ∧ |y 0 - a| ≤ AF.afBound (l 0 + L) G a N)) := by
  have hL := hT.pos
  have hn2 := hT.levels.two
  have hLr : Fl.Repr Fl.binary32 L := by
    rw [← hT.top]
    exact (hf _ (by omega)).1
  have hcount : nPol * (nCh + nAnt) = nPol * nCh + nAnt * nPol := by rw [Nat.mul_add, Nat.mul_comm nPol nAnt]
  obtain ⟨N, fs, Y, f1, f2, f3⟩ := AF.af_parts hsq hT hLr hc0 hR h hF hA hn hrows hsize hM
    ⟨nPol * (nCh + nAnt), fun _ => .nan⟩ hcount.ge ⟨symbolCount nR nPol nCh, fun _ => 0⟩ symbolCount_eq.ge
  choose s s1 s2 s3 using f1
  have hw : ∀ dith fuel, N ≤ fuel ↔ ∃ d, writeBlock (encData .af sq e nPol nCh nAnt dith fuel data) bits (nPol * (nCh + nAnt))
      (symbolCount nR nPol nCh) packed unpacked = .ok d := by
    intro dith fuel
    rw [af_written_iff sq hT hb hq hR hc0 hA h dith fuel hp hu]
    exact ⟨fun hf => ⟨_, _, s1 dith fuel hf⟩, fun ⟨_, _, he⟩ => f2 dith fuel _ he⟩
  have hblk : ∀ dith fuel d, writeBlock (encData .af sq e nPol nCh nAnt dith fuel data) bits (nPol * (nCh + nAnt))
        (symbolCount nR nPol nCh) packed unpacked = .ok d →
      (∀ k, k < nPol * (nCh + nAnt) → (metaView (nPol * (nCh + nAnt)) d).get k = fs.get k) ∧
      ∃ x, readBlock (decData .af e nPol nCh nAnt A) bits (nPol * (nCh + nAnt)) (symbolCount nR nPol nCh) nR dflt d out rows =
          .ok x ∧ ∀ r i, r < nR → i < nPol * nCh → (x.get r).vis.get i = valueOf .af e nPol nCh nAnt A fs (s dith) r i := by
    intro dith fuel d hd
    obtain ⟨x, m', s', x1, x2, -, x4, x5⟩ := af_block sq hT hb hq hR hc0 hA h dith fuel hp hu ho dflt rows hd
    have := s1 dith fuel ((hw dith fuel).2 ⟨d, hd⟩)
    rw [x2] at this
    simp only [Option.some.injEq, Prod.mk.injEq] at this
    obtain ⟨rfl, rfl⟩ := this
    exact ⟨x4, x, x1, x5⟩
  refine ⟨N, fs, hw, fun dith fuel d hd => (hblk dith fuel d hd).1, ?_⟩
  intro hN r c p m G a hr hcr hc hp' hm hG part j hpart ha
  have hi := AF.chan_lt (nPol := nPol) hc hp'
  have hG0 := hG.pos
  obtain ⟨g0, g1, g2, e0, l0, e1, l1, e2, l2, rfl, hov⟩ := hG
  obtain ⟨⟨u0, u1, u2⟩, f4⟩ := f3 hN r hr hcr c p m g0 g1 g2 hc hp' hm e0 l0 e1 l1 e2 l2
  obtain ⟨u, ex, hx, hu'⟩ := f4 part a (hpart.imp And.left And.left) ha
  have hlt := flat_lt hr hi
  have hj : j < nR * (nPol * nCh) * 2 := by
    rcases hpart with ⟨-, rfl⟩ | ⟨-, rfl⟩ <;> omega
  have hs : ∀ dith, e.encodeDither Fl.r32 (.fin (Fl.rnd Fl.binary32 u)) (dith j) = some ((s dith).get j) := by
    intro dith
    rw [← ex]
    rcases hpart with ⟨rfl, rfl⟩ | ⟨rfl, rfl⟩
    · exact (s3 dith r _ hr hi).1
    · exact (s3 dith r _ hr hi).2
  obtain ⟨v, v1, v2⟩ := Row.level_mean hT hf hg hlo (Fl.isFloat_cast _ _ ex).1 hx (s := fun m => (s fun _ => m).get j)
    (fun m _ => hs fun _ => m) (fun m _ => s2 _ _ hj)
  -- what is read for a level
  have hdec : ∀ m, m < 2 ^ 31 → ∃ y, Fl.cast Fl.r32 (Fl.mul Fl.r64 (.fin (v m)) (Fl.mul Fl.r64 (.fin g0)
      (Fl.mul Fl.r64 (.fin g1) (.fin g2)))) = .fin y ∧
      |y - v m * (g0 * (g1 * g2))| ≤ L * (g0 * (g1 * g2)) * (1 / 1600000) + (1 + g0 * (g1 * g2)) * 2 ^ (-149 : ℤ) := by
    intro m hm
    obtain ⟨-, w1, w2⟩ := v1 m hm
    obtain ⟨y, y1, y2⟩ := AF.decode_comp (x := v m * (g0 * (g1 * g2))) (u := v m) (N := 0) (δ := 0) (by norm_num) l0 l1 l2 u0 u1 u2
      (by rw [sub_self, abs_zero]; exact mul_nonneg (abs_nonneg _) (AF.drift_nonneg _)) w1
      (by rw [Fl.rnd_of_repr (by decide) w2, sub_self, abs_zero]) hov
    refine ⟨y, y1, le_trans y2 ?_⟩
    have h1 : |v m * (g0 * (g1 * g2))| ≤ 5 / 4 * L * (g0 * (g1 * g2)) := by
      rw [abs_mul, abs_of_pos hG0]
      exact mul_le_mul_of_nonneg_right w1 hG0.le
    unfold AF.afBound
    push_cast
    generalize (1 + g0 * (g1 * g2)) * (2 : ℚ) ^ (-149 : ℤ) = w
    linarith
  choose! y y1 y2 using hdec
  have hread : ReadBackAF sq e nR nPol nCh nAnt bits N A data packed unpacked out dflt rows j r (c * nPol + p) part y := by
    intro dith hm fuel hfuel
    obtain ⟨d, hd⟩ := (hw dith fuel).1 hfuel
    obtain ⟨-, x, x1, x2⟩ := hblk dith fuel d hd
    refine ⟨d, x, hd, x1, ?_⟩
    have : (s dith).get j = (s fun _ => dith j).get j := Option.some.inj ((hs dith).symm.trans (hs fun _ => dith j))
    rw [x2 r _ hr hi, ← y1 _ hm, ← (v1 _ hm).1, ← this]
    unfold valueOf factorOf
    rcases hpart with ⟨rfl, rfl⟩ | ⟨rfl, rfl⟩ <;> simp only [flat_mod hp', e0, e1, e2]
  have hpt : ∀ m, m < 2 ^ 31 → |y m - a| ≤ AF.afBound (max g (l 0 + L)) (g0 * (g1 * g2)) a N := by
    intro m hm
    have hg0 : 0 ≤ g := by
      have h1 := hg 0 (by omega)
      have h2 := StrictlyAscending.asc hT.levels.asc 0 1 (by omega) (by omega)
      linarith
    obtain ⟨s', z, q1, q2, q3⟩ := dither_accurate hT Fl.r32 (max g (l 0 + L)) (le_trans hg0 (le_max_left _ _)) (le_max_right _ _)
      (fun k hk => le_trans (hg k hk) (le_max_left _ _)) (Fl.rnd Fl.binary32 u) m hx
    have h1 : s' = (s fun _ => m).get j :=
      Option.some.inj ((show e.encodeDither Fl.r32 (.fin (Fl.rnd Fl.binary32 u)) m = some s' by simpa [encFn] using q1).symm.trans
        (hs fun _ => m))
    rw [h1, hT.decode_some (s2 _ _ hj)] at q2
    have h2 := (v1 m hm).1
    rw [Option.some.inj q2] at h2
    obtain rfl : z = v m := Fl.fin.inj h2
    obtain ⟨y', w1, w2⟩ := AF.decode_comp hN l0 l1 l2 u0 u1 u2 hu' (v1 m hm).2.1 q3 hov
    rw [y1 m hm] at w1
    rw [Fl.fin.inj w1]
    exact w2
  rcases v2 with hv | ⟨hx0, hv, hs0⟩
  · exact ⟨y, hread, hpt, Or.inl (AF.mean_comp hN hG0 rfl hu' hv (Row.mean_sub_le y2))⟩
  · have hv0 : ∀ m, m < 2 ^ 31 → v m = l 0 := by
      intro m hm
      have h1 := (v1 m hm).1
      have h2 := hT.levels.eq 0 (by omega)
      rw [hs0 m hm, h2] at h1
      exact (Fl.fin.inj h1).symm
    have z31 : 0 < 2 ^ 31 := by norm_num
    refine ⟨y, hread, hpt, Or.inr ⟨?_, fun m hm => ?_, ?_⟩⟩
    · by_contra hna
      have ha0 := not_lt.1 hna
      have hd2 := AF.drift_half (k := 4 + N) (by omega)
      have h1 := mul_le_mul_of_nonneg_left hd2 (abs_nonneg a)
      rw [abs_of_nonneg ha0] at hu' h1
      have h2 := (abs_le.1 hu').1
      have h3 : 0 ≤ u * (g0 * (g1 * g2)) := by linarith
      have h4 : 0 ≤ u := nonneg_of_mul_nonneg_left h3 hG0
      have h5 := Fl.rnd_mono (f := Fl.binary32) (by decide) h4
      rw [Fl.rnd_of_repr (by decide) (Fl.Repr.zero _)] at h5
      linarith
    · have h1 := y1 m hm
      have h2 := y1 0 z31
      rw [hv0 m hm, ← hv0 0 z31, h2] at h1
      exact (Fl.fin.inj h1).symm
    · obtain ⟨y', w1, w2⟩ := AF.decode_comp (δ := l 0 + L) hN l0 l1 l2 u0 u1 u2 hu' (v1 0 z31).2.1
        (by rw [hv0 0 z31, abs_of_nonneg (by linarith)]; linarith [(abs_le.1 hx).1]) hov
      rw [y1 0 z31] at w1
      rw [Fl.fin.inj w1]
      exact w2

/-- **C143** for the quantisers that a data column makes, with the precision of C79, over all states of the generator of the
thread that writes the block; the thread made `k` dither values before. -/
theorem af_mean_states {sq : Fl → Fl} (hsq : AF.SqrtMono sq) {lib : Prepare.Lib} {dn : Tools.Distribution}
    (hco : End.Concrete lib dn bits) {fl : Nat} {e0 d0 : Nat → Fl} {e : Encoder}
    (he : Prepare.encoder lib fl dn bits e0 d0 = some e) (hb : Supported bits)
    (hρ : End.ratio dn ((2 ^ bits - 1 : Nat) : ℚ) < 1) (hc0 : 0 < nCh) (hR : 0 < nR)
    (h : Holds nR (nPol * nCh) A D data) (hF : AF.FloatBlock nR (nPol * nCh) D)
    (hA : AF.AntennasBelow nR nAnt A) (hn : nAnt ≤ 2 ^ 14) (hrows : nR ≤ 2 ^ 24) (hsize : nR * nCh ≤ 2 ^ 24)
    (hM : AF.Moderate nR (nPol * nCh) A D)
    {packed : Mem 8} {unpacked out : Buf Nat} (hp : packed.len = blockSize (nPol * (nCh + nAnt)) (symbolCount nR nPol nCh) bits)
    (hu : unpacked.len = symbolCount nR nPol nCh) (ho : out.len = symbolCount nR nPol nCh)
    (dflt : DataRow Cx) (rows : Block Cx) {sample : Word → Nat} (hs : Fair sample) (k : Nat) :
    ∃ (N : Nat) (fs : Buf Fl),
      (∀ dith fuel, N ≤ fuel ↔ ∃ d, writeBlock (encData .af sq e nPol nCh nAnt dith fuel data) bits (nPol * (nCh + nAnt))
        (symbolCount nR nPol nCh) packed unpacked = .ok d) ∧
      (∀ dith fuel d, writeBlock (encData .af sq e nPol nCh nAnt dith fuel data) bits (nPol * (nCh + nAnt))
        (symbolCount nR nPol nCh) packed unpacked = .ok d →
        ∀ k, k < nPol * (nCh + nAnt) → (metaView (nPol * (nCh + nAnt)) d).get k = fs.get k) ∧
      (N ≤ 2000000 → ∀ r c p m G a, r < nR → (A r).1 ≠ (A r).2 → c < nCh → p < nPol → Counted (D r (c * nPol + p)) m →
        End.Factors fs (5 / 2) nPol nCh nAnt c p (A r) G → ∀ part, part = Cx.re ∨ part = Cx.im →
        part (D r (c * nPol + p)) = .fin a →
        ∃ Y : Gen → ℚ, (∀ s fuel, N ≤ fuel → ∃ d x,
          writeBlock (encData .af sq e nPol nCh nAnt (fun n => sample (output s (k + n))) fuel data) bits (nPol * (nCh + nAnt))
            (symbolCount nR nPol nCh) packed unpacked = .ok d ∧
          readBlock (decData .af e nPol nCh nAnt A) bits (nPol * (nCh + nAnt)) (symbolCount nR nPol nCh) nR dflt d out rows =
            .ok x ∧
          part ((x.get r).vis.get (c * nPol + p)) = .fin (Y s)) ∧
          (|stateMean Y - a| ≤ AF.meanBound (5 / 2 * End.ratio dn ((2 ^ bits - 1 : Nat) : ℚ)) (5 / 2) G a N ∨
            a < 0 ∧ (∀ s s', Y s = Y s') ∧
              ∀ s, |Y s - a| ≤ AF.afBound (5 / 2 * End.ratio dn ((2 ^ bits - 1 : Nat) : ℚ)) G a N)) := by
  have h16 : bits ≤ 16 := by
    rcases hb with h | h | h | h | h | h | h | h <;> omega
  have hbits : 2 ≤ bits := by
    rcases hb with h | h | h | h | h | h | h | h <;> omega
  obtain ⟨e', b, l, L, δ, t1, t2, t3, t4, t5⟩ := End.concrete_table hco h16 fl e0 d0
  obtain rfl : e' = e := Option.some.inj (t1.symm.trans he)
  have hq : 2 ^ 2 ≤ 2 ^ bits := Nat.pow_le_pow_right (by norm_num) hbits
  have hlv := t2.table.levels
  have hn2 := hlv.two
  have hLpos : (0 : ℚ) < L := by linarith
  have hfl : FloatLevels e'.n l := by
    intro i hi
    refine ⟨Prepare.level_repr (by omega) (Prepare.value_isFloat lib fl dn) t1 hlv hi, ?_⟩
    have h1 := StrictlyAscending.asc hlv.asc 0 i (by omega) hi
    have h2 := StrictlyAscending.asc hlv.asc i (e'.n - 1) (by omega) (by omega)
    rw [t2.table.top] at h2
    have h3 := t2.low
    rw [abs_le]
    constructor <;> norm_num <;> linarith
  have hδ0 : 0 ≤ δ := by
    have h1 := t2.gap 0 (by omega)
    have h2 := StrictlyAscending.asc hlv.asc 0 1 (by omega) (by omega)
    linarith
  have hδ : δ ≤ End.ratio dn ((2 ^ bits - 1 : Nat) : ℚ) * L := by rwa [div_le_iff₀ hLpos] at t3
  generalize End.ratio dn ((2 ^ bits - 1 : Nat) : ℚ) = ρ at *
  have hρ0 : 0 ≤ ρ := le_trans (div_nonneg hδ0 hLpos.le) t3
  have hsym : l 0 + L ≤ δ := by
    have := t2.sym
    linarith
  have hneg : l 0 < 0 := by nlinarith
  have hδ' : δ ≤ 5 / 2 * ρ := by nlinarith
  obtain ⟨N, fs, g1, g2, g3⟩ := af_mean hsq t2.table hfl (g := δ) t2.gap t2.low hneg hb t2.count hc0 hR h hF hA hn hrows hsize hM hp hu
    ho dflt rows
  refine ⟨N, fs, g1, g2, ?_⟩
  intro hN r c p m G a hr hcr hc hp' hm hG part hpart ha
  have hpos := hG.pos
  have hG' : End.Factors fs L nPol nCh nAnt c p (A r) G := by
    obtain ⟨q0, q1, q2, w0, w1, w2, w3, w4, w5, w6, w7⟩ := hG
    exact ⟨q0, q1, q2, w0, w1, w2, w3, w4, w5, w6, le_trans (mul_le_mul_of_nonneg_right t5 hpos.le) w7⟩
  obtain ⟨j, hj⟩ : ∃ j, part = Cx.re ∧ j = (r * (nPol * nCh) + (c * nPol + p)) * 2 ∨
      part = Cx.im ∧ j = (r * (nPol * nCh) + (c * nPol + p)) * 2 + 1 := by
    rcases hpart with h | h
    · exact ⟨_, Or.inl ⟨h, rfl⟩⟩
    · exact ⟨_, Or.inr ⟨h, rfl⟩⟩
  obtain ⟨y, y1, -, y2⟩ := g3 hN r c p m G a hr hcr hc hp' hm hG' part j hj ha
  refine ⟨fun s => y (sample (output s (k + j))), fun s => y1 (fun n => sample (output s (k + n))) (hs.1 _), ?_⟩
  rcases y2 with y2 | ⟨a0, y2, y3⟩
  · left
    rw [dither_uniform hs (k + j) y]
    refine le_trans y2 ?_
    unfold AF.meanBound
    have h1 : δ / 2 ^ 22 * G ≤ 5 / 2 * ρ / 2 ^ 22 * G :=
      mul_le_mul_of_nonneg_right (div_le_div_of_nonneg_right hδ' (by norm_num)) hpos.le
    have h2 : L * G ≤ 5 / 2 * G := mul_le_mul_of_nonneg_right t5 hpos.le
    linarith
  · refine Or.inr ⟨a0, fun s s' => ?_, fun s => ?_⟩
    · show y _ = y _
      rw [y2 _ (hs.1 _), y2 _ (hs.1 (output s' (k + j)))]
    · show |y _ - a| ≤ _
      rw [y2 _ (hs.1 _)]
      refine le_trans y3 ?_
      unfold AF.afBound
      have h1 : (l 0 + L) * G * (1 + 1 / 8000000) ≤ 5 / 2 * ρ * G * (1 + 1 / 8000000) :=
        mul_le_mul_of_nonneg_right (mul_le_mul_of_nonneg_right (le_trans hsym hδ') hpos.le) (by norm_num)
      linarith

theorem example_levels : FloatLevels Row.smallTable.n (fun i => (i : ℚ) - 1) := by
  intro i hi
  have hi' : i = 0 ∨ i = 1 ∨ i = 2 := by
    have : i < 3 := hi
    omega
  have h1 : Fl.Repr Fl.binary32 (1 : ℚ) := by
    have := Fl.repr32_nat (n := 1) (by norm_num)
    simpa using this
  rcases hi' with rfl | rfl | rfl
  · refine ⟨?_, by norm_num⟩
    have := h1.neg
    norm_num at this ⊢
    exact this
  · refine ⟨?_, by norm_num⟩
    norm_num
    exact Fl.Repr.zero _
  · refine ⟨?_, by norm_num⟩
    norm_num
    exact h1

theorem example_moderate : AF.Moderate 2 (1 * 2) (fun _ => (0, 1)) AF.moderateVis := by
  intro r i hr hi
  have hr' : r = 0 ∨ r = 1 := by omega
  have hi' : i = 0 ∨ i = 1 := by omega
  rcases hr' with rfl | rfl <;> rcases hi' with rfl | rfl <;>
    refine ⟨?_, ?_⟩ <;> simp [AF.moderateVis, AF.Cross] <;> norm_num

theorem example_holds :
    Holds 2 (1 * 2) (fun _ => (0, 1)) AF.moderateVis ⟨2, fun r => ⟨0, 1, ⟨2, AF.moderateVis r⟩⟩⟩ :=
  ⟨rfl, fun _ _ => rfl, fun _ _ => rfl, fun _ _ _ _ => rfl⟩

theorem example_antennas : AF.AntennasBelow 2 2 (fun _ => (0, 1)) := fun _ _ => ⟨by norm_num, by norm_num⟩

theorem example_floats : AF.FloatBlock 2 (1 * 2) AF.moderateVis := fun r i _ _ =>
  ⟨fun a ha => (moderate_floats r i).1 a (Or.inl ha), fun a ha => (moderate_floats r i).1 a (Or.inr ha)⟩

/-- The fit of the example takes at most one iteration, and the stored factors are normal floats below 16. -/
theorem example_fit {packed : Mem 8} (hl : packed.len = blockSize 4 8 2) {N : Nat} {fs : Buf Fl}
    (g1 : ∀ dith fuel, N ≤ fuel ↔ ∃ d, writeBlock (encData .af AF.coarseSqrt Row.smallTable 1 2 2 dith fuel
      ⟨2, fun r => ⟨0, 1, ⟨2, AF.moderateVis r⟩⟩⟩) 2 4 8 packed ⟨8, fun _ => 0⟩ = .ok d)
    (g2 : ∀ dith fuel d, writeBlock (encData .af AF.coarseSqrt Row.smallTable 1 2 2 dith fuel
      ⟨2, fun r => ⟨0, 1, ⟨2, AF.moderateVis r⟩⟩⟩) 2 4 8 packed ⟨8, fun _ => 0⟩ = .ok d →
        ∀ k, k < 4 → (metaView 4 d).get k = fs.get k) :
    N ≤ 1 ∧ ∀ k, k < 4 → ∃ x, fs.get k = .fin x ∧ (2 : ℚ) ^ (-126 : ℤ) ≤ x ∧ x < 16 := by
  have hA := example_antennas
  have h := example_holds
  have ev : (match exampleBlock AF.moderateVis with
      | some (some (m, _)) => (List.range 4).all fun i => AF.isNormal (m.get i) && Fl.lt (m.get i) (.fin 16)
      | _ => false) = true := by decide +kernel
  have hs : ∃ m s, exampleBlock AF.moderateVis = some (some (m, s)) := by
    split at ev
    · rename_i m s e
      exact ⟨m, s, e⟩
    · cases ev
  obtain ⟨d, hd⟩ := (af_written_iff (nAnt := 2) (bits := 2) AF.coarseSqrt Row.smallTable_ok (Or.inl rfl) rfl (by decide)
    (by decide) hA h (fun _ => 0) 1 (packed := packed) (unpacked := ⟨8, fun _ => 0⟩) hl rfl).mpr hs
  obtain ⟨_, m, s, -, a1, -, m1, -⟩ := af_block (nAnt := 2) (bits := 2) AF.coarseSqrt Row.smallTable_ok (Or.inl rfl) rfl
    (by decide) (by decide) hA h (fun _ => 0) 1 hl rfl (out := ⟨8, fun _ => 0⟩) rfl
    ⟨0, 0, ⟨0, fun _ => ⟨.nan, .nan⟩⟩⟩ ⟨0, fun _ => ⟨0, 0, ⟨0, fun _ => ⟨.nan, .nan⟩⟩⟩⟩ hd
  have a1' : exampleBlock AF.moderateVis = some (some (m, s)) := a1
  rw [a1'] at ev
  refine ⟨(g1 (fun _ => 0) 1).2 ⟨d, hd⟩, ?_⟩
  intro k hk
  have e1 : (metaView 4 d).get k = fs.get k := g2 (fun _ => 0) 1 d hd k hk
  have e2 : (metaView 4 d).get k = m.get k := m1 k hk
  have e3 := List.all_eq_true.1 ev k (List.mem_range.2 hk)
  rw [Bool.and_eq_true] at e3
  obtain ⟨x, x1, x2⟩ := AF.isNormal_iff e3.1
  refine ⟨x, by rw [← e1, e2, x1], x2, ?_⟩
  have e4 := e3.2
  rw [x1] at e4
  simpa [Fl.lt] using e4

/-- The real part 3 of the first sample of two rows and two channels, with a NaN sample and an infinity: the mean is 3 up to
`G/400000 + 1/500000`, where the product `G` of the factors is below 4096. -/
example (packed : Mem 8) (hl : packed.len = blockSize 4 8 2) (dflt : DataRow Cx) (rows : Block Cx) :
    ∃ (N : Nat) (G : ℚ) (y : Nat → ℚ), N ≤ 1 ∧ 0 < G ∧ G < 4096 ∧
      ReadBackAF AF.coarseSqrt Row.smallTable 2 1 2 2 2 N (fun _ => (0, 1)) ⟨2, fun r => ⟨0, 1, ⟨2, AF.moderateVis r⟩⟩⟩ packed
        ⟨8, fun _ => 0⟩ ⟨8, fun _ => 0⟩ dflt rows 0 0 0 Cx.re y ∧
      |Row.mean y - 3| ≤ G / 400000 + 1 / 500000 := by
  obtain ⟨N, fs, g1, g2, g3⟩ := af_mean (nAnt := 2) (bits := 2) (A := fun _ => (0, 1)) (g := 1) AF.coarseSqrt_mono
    Row.smallTable_ok example_levels (fun k _ => by push_cast; linarith) (by norm_num) (by norm_num) (Or.inl rfl) rfl (by decide)
    (by decide) example_holds example_floats example_antennas (by decide) (by decide) (by decide) example_moderate hl
    (unpacked := ⟨8, fun _ => 0⟩) (out := ⟨8, fun _ => 0⟩) rfl rfl dflt rows
  obtain ⟨hN, hfs⟩ := example_fit hl g1 g2
  obtain ⟨q0, w0, v0, u0⟩ := hfs 0 (by decide)
  obtain ⟨q1, w1, v1, u1⟩ := hfs 2 (by decide)
  obtain ⟨q2, w2, v2, u2⟩ := hfs 3 (by decide)
  have z := Fl.zp_pos (-126)
  have p0 := lt_of_lt_of_le z v0
  have p1 := lt_of_lt_of_le z v1
  have p2 := lt_of_lt_of_le z v2
  have hG : q0 * (q1 * q2) < 4096 := by
    have h1 : q1 * q2 < 16 * 16 := mul_lt_mul'' u1 u2 p1.le p2.le
    have h2 : q0 * (q1 * q2) < 16 * (16 * 16) := mul_lt_mul'' u0 h1 p0.le (mul_pos p1 p2).le
    linarith
  have hpos : 0 < q0 * (q1 * q2) := mul_pos p0 (mul_pos p1 p2)
  obtain ⟨y, y1, -, y2⟩ := g3 (by omega) 0 0 0 4 (q0 * (q1 * q2)) 3 (by decide) (by decide) (by decide) (by decide)
    ⟨3, rfl, Or.inl ⟨-4, rfl, by norm_num⟩⟩
    ⟨q0, q1, q2, w0, v0, w1, v1, w2, v2, rfl, by rw [one_mul]; exact hG.le.trans (by norm_num)⟩ Cx.re 0 (Or.inl ⟨rfl, rfl⟩) rfl
  refine ⟨N, q0 * (q1 * q2), y, hN, hpos, hG, y1, ?_⟩
  rcases y2 with y2 | ⟨y2, -⟩
  · refine le_trans y2 ?_
    unfold AF.meanBound
    have hNq : (N : ℚ) ≤ 1 := by exact_mod_cast hN
    generalize q0 * (q1 * q2) = G at hG hpos ⊢
    have e148 : (2 : ℚ) ^ (-148 : ℤ) ≤ 1 / 10 ^ 40 := by norm_num
    have h1 : (1 + G) * (2 : ℚ) ^ (-148 : ℤ) ≤ (1 + G) * (1 / 10 ^ 40) := mul_le_mul_of_nonneg_left e148 (by linarith)
    rw [abs_of_pos (by norm_num : (0 : ℚ) < 3)]
    norm_num at h1 ⊢
    linarith
  · norm_num at y2

end Dysco.Layout
