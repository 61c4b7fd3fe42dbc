import Verif.RowProps

/-!
# Properties C21, C22 and C23 for row-frequency normalisation
-/

namespace Dysco.RF
open TimeBlock Stochastic

variable {nR nPol nCh : Nat} {A : Nat → Nat × Nat} {D : Nat → Nat → Cx} {data : Block Cx}

/-- Data after the row stage. -/
def rowed (RD : ℚ → Fl) (maxLevel : Fl) (nPol nCh : Nat) (D : Nat → Nat → Cx) (r i : Nat) : Cx :=
  (D r i).scale RD (Row.rowFactor RD maxLevel (pMax nPol nCh D r (i % nPol)))

/-- Channel factor computed from the data after the row stage. -/
def chF (RD : ℚ → Fl) (maxLevel : Fl) (nR nPol nCh : Nat) (D : Nat → Nat → Cx) (i : Nat) : Fl :=
  chanFactor RD maxLevel (maxFold (fun r => rowed RD maxLevel nPol nCh D r i) nR)

/-- What `encode` computes, for any rounding. -/
theorem encode_spec {RF RD : ℚ → Fl} {enc : Fl → Nat → Option Nat} {q : Nat} (hq : Total enc q)
    {maxLevel : Fl} {dith : Nat → Nat} (h : Holds nR (nPol * nCh) A D data) (metaB : Buf Fl)
    (hm : nPol * nCh + nR * nPol ≤ metaB.len) (sym : Buf Nat) (hs : nR * (nPol * nCh) * 2 ≤ sym.len) :
    ∃ metaB' sym', encode RF RD enc maxLevel nPol nCh dith data metaB sym = some (metaB', sym') ∧
      metaB'.len = metaB.len ∧ sym'.len = sym.len ∧
      (∀ i, i < nPol * nCh → metaB'.get i =
        Fl.cast RF (Fl.div RD (.fin 1) (chF RD maxLevel nR nPol nCh D i))) ∧
      (∀ r p, r < nR → p < nPol → metaB'.get (nPol * nCh + (r * nPol + p)) =
        Fl.cast RF (rowMeta RD maxLevel (pMax nPol nCh D r p))) ∧
      (∀ j, nPol * nCh + nR * nPol ≤ j → metaB'.get j = metaB.get j) ∧
      (∀ j, j < nR * (nPol * nCh) * 2 → sym'.get j < q) ∧
      (∀ j, nR * (nPol * nCh) * 2 ≤ j → sym'.get j = sym.get j) ∧
      (∀ r i, r < nR → i < nPol * nCh →
        enc (Fl.cast RF (Fl.mul RD (rowed RD maxLevel nPol nCh D r i).re
            (chF RD maxLevel nR nPol nCh D i)))
          (dith ((r * (nPol * nCh) + i) * 2)) = some (sym'.get ((r * (nPol * nCh) + i) * 2)) ∧
        enc (Fl.cast RF (Fl.mul RD (rowed RD maxLevel nPol nCh D r i).im
            (chF RD maxLevel nR nPol nCh D i)))
          (dith ((r * (nPol * nCh) + i) * 2 + 1)) =
            some (sym'.get ((r * (nPol * nCh) + i) * 2 + 1))) := by
  obtain ⟨D1, data1, meta1, e1, h1, h2, h3, h4, h5⟩ :=
    maximizeRows_spec (RF := RF) (RD := RD) (maxLevel := maxLevel) h metaB hm
  obtain ⟨D2, data2, meta2, e2, k1, k2, k3, k4, k5⟩ :=
    maximizeChannels_spec (RF := RF) (RD := RD) (maxLevel := maxLevel) h1 meta1 (by omega)
  obtain ⟨sym', e3, g1, g2, g3, g4⟩ := quantise_total (RF := RF) hq (dith := dith) k1 sym hs
  have hD1 : ∀ r i, r < nR → i < nPol * nCh → D1 r i = rowed RD maxLevel nPol nCh D r i := by
    intro r i hr hi
    have hp : 0 < nPol := Nat.pos_of_ne_zero (by rintro rfl; simp at hi)
    have := h2 r (i / nPol) (i % nPol) hr (Nat.div_lt_of_lt_mul hi) (Nat.mod_lt _ hp)
    rw [Nat.mul_comm (i / nPol), Nat.div_add_mod] at this
    exact this
  have hC : ∀ i, i < nPol * nCh → chanFactor RD maxLevel (maxFold (fun r => D1 r i) nR) =
      chF RD maxLevel nR nPol nCh D i := by
    intro i hi
    unfold chF
    rw [maxFold_congr (fun r hr => hD1 r i hr hi)]
  refine ⟨meta2, sym', ?_, by omega, g1, ?_, ?_, ?_, g2, g3, ?_⟩
  · unfold encode
    rw [e1, Option.bind_some, e2, Option.bind_some]
    simp only
    rw [e3]
    rfl
  · intro i hi
    rw [k4 i hi, hC i hi]
  · intro r p hr hp
    rw [k5 _ (by omega), h4 r p hr hp]
  · intro j hj
    rw [k5 _ (by omega), h5 j (Or.inr hj)]
  · intro r i hr hi
    have := g4 r i hr hi
    rw [k2 r i hr hi, hD1 r i hr hi, hC i hi] at this
    exact this

/-- What `decode` of row `r` gives. -/
theorem decode_spec {RF RD : ℚ → Fl} {e : Encoder} {b l : Nat → ℚ} {L : ℚ} (hT : Table e b l L)
    (metaB : Buf Fl) (sym : Buf Nat) (dest : Block Cx) (r a1 a2 : Nat) (hr : r < dest.len)
    (hm : nPol * nCh + (r + 1) * nPol ≤ metaB.len)
    (hs : (r * (nPol * nCh) + nPol * nCh) * 2 ≤ sym.len)
    (hq : ∀ j, j < (r * (nPol * nCh) + nPol * nCh) * 2 → sym.get j < e.quantCount) :
    ∃ dest', decode RF RD e.decode nPol nCh metaB dest sym r a1 a2 = some dest' ∧
      dest'.len = dest.len ∧ (∀ j, j ≠ r → dest'.get j = dest.get j) ∧
      (dest'.get r).antenna1 = a1 ∧ (dest'.get r).antenna2 = a2 ∧
      (dest'.get r).vis.len = nPol * nCh ∧
      ∀ i, i < nPol * nCh → (dest'.get r).vis.get i =
        ⟨Fl.cast RF (Fl.mul RD (e.level (sym.get ((r * (nPol * nCh) + i) * 2)))
          (Fl.mul RD (metaB.get i) (metaB.get (nPol * nCh + (r * nPol + i % nPol))))),
         Fl.cast RF (Fl.mul RD (e.level (sym.get ((r * (nPol * nCh) + i) * 2 + 1)))
          (Fl.mul RD (metaB.get i) (metaB.get (nPol * nCh + (r * nPol + i % nPol)))))⟩ := by
  refine decodeRow_spec (n := nPol * nCh) (RF := RF) (RD := RD) (dec := e.decode)
    (factor := fun i => (metaB.rd i).bind fun ch =>
      (metaB.rd (nPol * nCh + (r * nPol + i % nPol))).map fun row => Fl.mul RD ch row)
    dest sym r a1 a2 hr hs
    (fun i => Fl.mul RD (metaB.get i) (metaB.get (nPol * nCh + (r * nPol + i % nPol))))
    ?_ (fun j => e.level (sym.get j)) (fun j _ hj => hT.decode_some (hq j hj))
  intro i hi
  have hp : 0 < nPol := Nat.pos_of_ne_zero (by rintro rfl; simp at hi)
  have := Nat.mod_lt i hp
  rw [Nat.add_mul, Nat.one_mul] at hm
  rw [Buf.rd_some (show i < metaB.len by omega), Option.bind_some,
    Buf.rd_some (show nPol * nCh + (r * nPol + i % nPol) < metaB.len by omega)]
  rfl

/-! ## C21 -/

/-- Scaling with a finite non-zero factor that keeps finite components finite does not change which
visibilities are counted. -/
theorem counted_scale {R : ℚ → Fl} {v : Cx} {f : Fl} {m' : ℚ} (hf : ∃ x, f = .fin x ∧ x ≠ 0)
    (h : Counted (v.scale R f) m') : ∃ m, Counted v m := by
  obtain ⟨x, rfl, hx⟩ := hf
  obtain ⟨a, h1, h2⟩ := h
  simp only [Cx.scale] at h1 h2
  cases hre : v.re with
  | nan => rw [hre] at h1; simp [Fl.mul] at h1
  | inf s => rw [hre] at h1; simp [Fl.mul, hx] at h1
  | fin a' =>
    cases him : v.im with
    | nan => exact ⟨|a'|, a', hre, Or.inr ⟨him, rfl⟩⟩
    | fin b' => exact ⟨max |a'| |b'|, a', hre, Or.inl ⟨b', him, rfl⟩⟩
    | inf s => rw [him] at h2; simp [Fl.mul, hx] at h2

/-- Row stage on one component in double arithmetic. -/
theorem row_stage {a M L : ℚ} (hL : 0 < L) (hLr : Fl.Repr Fl.binary32 L)
    (hL2 : L < 2 ^ (128 : ℤ)) (ha : Fl.Repr Fl.binary32 a) (haM : |a| ≤ M)
    (hMr : Fl.Repr Fl.binary32 M) (hM2 : M < 2 ^ (128 : ℤ)) :
    ∃ P, Fl.mul Fl.r64 (.fin a) (Row.rowFactor Fl.r64 (.fin L) (.fin M)) = .fin P ∧
      (a = 0 → P = 0) ∧ (a ≠ 0 → 2 ^ (-427 : ℤ) ≤ |P|) ∧ |P| ≤ 2 ^ (129 : ℤ) ∧
      (0 < M → |P - a * (L / M)| ≤ |a| * (L / M) * (1 / 2251799813685248)) := by
  have z : ∀ {i j : ℤ}, i ≤ j → (2 : ℚ) ^ i ≤ 2 ^ j := fun h => zpow_le_zpow_right₀ (by norm_num) h
  rcases (le_trans (abs_nonneg a) haM).eq_or_lt with h0 | hM
  · rw [← h0] at haM ⊢
    have ha0 : a = 0 := abs_eq_zero.mp (le_antisymm haM (abs_nonneg a))
    subst ha0
    refine ⟨0, ?_, fun _ => rfl, fun h => absurd rfl h, by rw [abs_zero]; exact (Fl.zp_pos _).le,
      fun h => absurd h (lt_irrefl _)⟩
    rw [rowFactor_zero]
    simp only [Fl.mul, zero_mul, Fl.r64_zero]
  · rw [rowFactor_pos hM.ne']
    have hLge := Fl.repr32_ge hLr hL
    have hMge := Fl.repr32_ge hMr hM
    have hf1 : (2 : ℚ) ^ (-277 : ℤ) ≤ L / M := by
      rw [le_div_iff₀ hM]
      refine le_trans (mul_le_mul_of_nonneg_left hM2.le (Fl.zp_pos _).le) ?_
      rw [← zpow_add₀ (by norm_num)]
      exact le_trans (z (by norm_num)) hLge
    have hf2 : L / M ≤ 2 ^ (277 : ℤ) := by
      rw [div_le_iff₀ hM]
      refine le_trans hL2.le (le_trans ?_ (mul_le_mul_of_nonneg_left hMge (Fl.zp_pos _).le))
      rw [← zpow_add₀ (by norm_num)]
      exact z (by norm_num)
    have hX : |a| * (L / M) ≤ L := by
      rw [← mul_div_assoc, div_le_iff₀ hM, mul_comm L]
      exact mul_le_mul_of_nonneg_right haM hL.le
    have hXlo : a ≠ 0 → 2 ^ (-426 : ℤ) ≤ |a| * (L / M) := by
      intro h
      have h1 := Fl.repr32_ge ha.abs (abs_pos.mpr h)
      refine le_trans ?_ (mul_le_mul h1 hf1 (Fl.zp_pos _).le (abs_nonneg a))
      rw [← zpow_add₀ (by norm_num)]
      exact z (by norm_num)
    obtain ⟨P, eP, hP⟩ := Fl.scale64 (a := a) hM (le_trans (z (by norm_num)) hf1)
      (le_trans hf2 (z (by norm_num)))
      (by
        by_cases h : a = 0
        · exact Or.inl h
        · exact Or.inr (le_trans (z (by norm_num)) (hXlo h)))
      (le_trans hX (le_trans hL2.le (z (by norm_num))))
    have hXa : |a * (L / M)| = |a| * (L / M) := by
      rw [abs_mul, abs_of_pos (div_pos hL hM)]
    refine ⟨P, eP, ?_, ?_, ?_, fun _ => hP⟩
    · rintro rfl
      rw [zero_mul, abs_zero, zero_mul, zero_mul, sub_zero] at hP
      exact abs_eq_zero.mp (le_antisymm hP (abs_nonneg P))
    · intro h
      have h1 := hXlo h
      have h2 : |a * (L / M)| - |P| ≤ |P - a * (L / M)| := by
        rw [abs_sub_comm]; exact abs_sub_abs_le_abs_sub _ _
      rw [hXa] at h2
      have h3 : (2 : ℚ) ^ (-426 : ℤ) = 2 * 2 ^ (-427 : ℤ) := by
        rw [← zpow_one_add₀ (by norm_num)]; norm_num
      have h5 := (Fl.zp_pos (-427))
      rw [h3] at h1
      generalize (2 : ℚ) ^ (-427 : ℤ) = t at *
      generalize |a| * (L / M) = X at *
      clear hf1 hf2 hL2 hM2 hLge hMge h3 z
      linarith
    · have h2 : |P| - |a * (L / M)| ≤ |P - a * (L / M)| := abs_sub_abs_le_abs_sub _ _
      rw [hXa] at h2
      have h3 : (2 : ℚ) ^ (129 : ℤ) = 2 * 2 ^ (128 : ℤ) := by
        rw [← zpow_one_add₀ (by norm_num)]; norm_num
      rw [h3]
      have h4 : 0 ≤ |a| * (L / M) := mul_nonneg (abs_nonneg a) (div_pos hL hM).le
      generalize (2 : ℚ) ^ (128 : ℤ) = t at *
      generalize |a| * (L / M) = X at *
      clear hf1 hf2 hLge hMge h3 z
      linarith

/-- Channel stage on one component: `P` is a result of the row stage, `C` the channel maximum. -/
theorem chan_stage {P C L : ℚ} (hL : 0 < L) (hLr : Fl.Repr Fl.binary32 L)
    (hL2 : L < 2 ^ (128 : ℤ)) (hP0 : P = 0 ∨ 2 ^ (-427 : ℤ) ≤ |P|) (hPC : |P| ≤ C)
    (hC0 : C = 0 ∨ 2 ^ (-427 : ℤ) ≤ C) (hC2 : C ≤ 2 ^ (129 : ℤ)) :
    ∃ y, Fl.cast Fl.r32 (Fl.mul Fl.r64 (.fin P) (chanFactor Fl.r64 (.fin L) (.fin C))) = .fin y ∧
      |y| ≤ L ∧ (0 < C → |P| = C → |y| = L) ∧
      (0 < C → |y - P * (L / C)| ≤ L * (1 / 16000000) + 2 ^ (-150 : ℤ)) := by
  have z : ∀ {i j : ℤ}, i ≤ j → (2 : ℚ) ^ i ≤ 2 ^ j := fun h => zpow_le_zpow_right₀ (by norm_num) h
  have hLne := hL.ne'
  rcases (le_trans (abs_nonneg P) hPC).eq_or_lt with h0 | hC
  · rw [← h0] at hPC ⊢
    have hP0 : P = 0 := abs_eq_zero.mp (le_antisymm hPC (abs_nonneg P))
    subst hP0
    refine ⟨0, ?_, by simpa using hL.le, fun h => absurd h (lt_irrefl _),
      fun h => absurd h (lt_irrefl _)⟩
    simp [chanFactor, Fl.eq, Fl.mul, Fl.r64_zero, Fl.cast, Fl.r32_zero]
  · have hfac : chanFactor Fl.r64 (.fin L) (.fin C) = Fl.div Fl.r64 (.fin L) (.fin C) := by
      simp [chanFactor, Fl.eq, hLne, hC.ne']
    rw [hfac]
    have hCge : 2 ^ (-427 : ℤ) ≤ C := by
      rcases hC0 with h | h
      · rw [h] at hC; exact absurd hC (lt_irrefl _)
      · exact h
    have hLge := Fl.repr32_ge hLr hL
    have hf1 : (2 : ℚ) ^ (-278 : ℤ) ≤ L / C := by
      rw [le_div_iff₀ hC]
      refine le_trans (mul_le_mul_of_nonneg_left hC2 (Fl.zp_pos _).le) ?_
      rw [← zpow_add₀ (by norm_num)]
      exact le_trans (z (by norm_num)) hLge
    have hf2 : L / C ≤ 2 ^ (555 : ℤ) := by
      rw [div_le_iff₀ hC]
      refine le_trans hL2.le (le_trans ?_ (mul_le_mul_of_nonneg_left hCge (Fl.zp_pos _).le))
      rw [← zpow_add₀ (by norm_num)]
      exact z (by norm_num)
    have hX : |P| * (L / C) ≤ L := by
      rw [← mul_div_assoc, div_le_iff₀ hC, mul_comm L]
      exact mul_le_mul_of_nonneg_right hPC hL.le
    obtain ⟨Q, eQ, hQ⟩ := Fl.scale64 (a := P) hC (le_trans (z (by norm_num)) hf1)
      (le_trans hf2 (z (by norm_num)))
      (by
        rcases hP0 with h | h
        · exact Or.inl h
        · right
          refine le_trans ?_ (mul_le_mul h hf1 (Fl.zp_pos _).le (abs_nonneg P))
          rw [← zpow_add₀ (by norm_num)]
          exact z (by norm_num))
      (le_trans hX (le_trans hL2.le (z (by norm_num))))
    have hXa : |P * (L / C)| = |P| * (L / C) := by
      rw [abs_mul, abs_of_pos (div_pos hL hC)]
    rw [← hXa] at hX hQ
    obtain ⟨y, ey, y1, y2, y3⟩ := Fl.cast32_le hL hLr hL2 hX hQ
    refine ⟨y, by rw [eQ, ey], y1, ?_, fun _ => y2⟩
    intro _ h
    apply y3
    rw [hXa, h]
    field_simp

/-- Largest component per row and polarisation. -/
def RowPolMax (nPol nCh : Nat) (D : Nat → Nat → Cx) (r p : Nat) (M : ℚ) : Prop :=
  IsMax nCh (fun ch => D r (ch * nPol + p)) M

theorem rowPolMax_exists (nPol nCh : Nat) (D : Nat → Nat → Cx) (r p : Nat) :
    ∃ M, RowPolMax nPol nCh D r p M ∧ pMax nPol nCh D r p = .fin M := by
  obtain ⟨M, e, h⟩ := maxFold_spec (fun ch => D r (ch * nPol + p)) nCh
  exact ⟨M, h, e⟩

/-- Every counted visibility is within its row/polarisation maximum. -/
theorem RowPolMax.le {r i : Nat} {M m : ℚ} (h : RowPolMax nPol nCh D r (i % nPol) M)
    (hi : i < nPol * nCh) (hc : Counted (D r i) m) : m ≤ M := by
  refine h.2.1 (i / nPol) m (Nat.div_lt_of_lt_mul hi) ?_
  simp only
  rw [Nat.mul_comm (i / nPol), Nat.div_add_mod]
  exact hc

/-- What the row stage leaves, in float and double arithmetic: the row maxima are floats, counted
components become finite doubles that are zero or at least `2^-427`, the same visibilities are counted
as before, and the channel maxima are of the same kind. -/
theorem row_stage_facts {L : ℚ} (hL : 0 < L) (hLr : Fl.Repr Fl.binary32 L) (hL2 : L < 2 ^ (128 : ℤ))
    (hF : ∀ r i, r < nR → i < nPol * nCh → FloatVis (D r i)) :
    (∀ r i, r < nR → i < nPol * nCh → ∃ M, RowPolMax nPol nCh D r (i % nPol) M ∧
      pMax nPol nCh D r (i % nPol) = .fin M ∧ Fl.Repr Fl.binary32 M ∧ M < 2 ^ (128 : ℤ)) ∧
    (∀ r i m a, r < nR → i < nPol * nCh → Counted (D r i) m →
      ((D r i).re = .fin a ∨ (D r i).im = .fin a) →
      ∃ P, Fl.mul Fl.r64 (.fin a) (Row.rowFactor Fl.r64 (.fin L) (pMax nPol nCh D r (i % nPol))) =
        .fin P ∧ (a = 0 → P = 0) ∧ (a ≠ 0 → 2 ^ (-427 : ℤ) ≤ |P|) ∧ |P| ≤ 2 ^ (129 : ℤ) ∧
        ∀ M, RowPolMax nPol nCh D r (i % nPol) M → 0 < M →
          |P - a * (L / M)| ≤ |a| * (L / M) * (1 / 2251799813685248)) ∧
    (∀ r i m', r < nR → i < nPol * nCh →
      Counted (rowed Fl.r64 (.fin L) nPol nCh D r i) m' → ∃ m, Counted (D r i) m) ∧
    (∀ r i m, r < nR → i < nPol * nCh → Counted (D r i) m →
      ∃ m', Counted (rowed Fl.r64 (.fin L) nPol nCh D r i) m' ∧ (m ≠ 0 → m' ≠ 0)) ∧
    (∀ i, i < nPol * nCh → ∃ C, maxFold (fun r => rowed Fl.r64 (.fin L) nPol nCh D r i) nR =
      .fin C ∧ IsMax nR (fun r => rowed Fl.r64 (.fin L) nPol nCh D r i) C ∧
      (C = 0 ∨ 2 ^ (-427 : ℤ) ≤ C) ∧ C ≤ 2 ^ (129 : ℤ)) := by
  have hrow : ∀ r i, r < nR → i < nPol * nCh → ∃ M, RowPolMax nPol nCh D r (i % nPol) M ∧
      pMax nPol nCh D r (i % nPol) = .fin M ∧ Fl.Repr Fl.binary32 M ∧ M < 2 ^ (128 : ℤ) := by
    intro r i hr hi
    have hp : 0 < nPol := Nat.pos_of_ne_zero (by rintro rfl; simp at hi)
    obtain ⟨M, hM, eM⟩ := rowPolMax_exists nPol nCh D r (i % nPol)
    obtain ⟨h1, h2⟩ := Row.max_float hM (fun ch hch => hF r _ hr (by
      rw [Nat.mul_comm nPol nCh]; exact flat_lt hch (Nat.mod_lt _ hp)))
    exact ⟨M, hM, eM, h1, h2⟩
  have hcomp : ∀ r i m a, r < nR → i < nPol * nCh → Counted (D r i) m →
      ((D r i).re = .fin a ∨ (D r i).im = .fin a) →
      ∃ P, Fl.mul Fl.r64 (.fin a) (Row.rowFactor Fl.r64 (.fin L) (pMax nPol nCh D r (i % nPol))) =
        .fin P ∧ (a = 0 → P = 0) ∧ (a ≠ 0 → 2 ^ (-427 : ℤ) ≤ |P|) ∧ |P| ≤ 2 ^ (129 : ℤ) ∧
        ∀ M, RowPolMax nPol nCh D r (i % nPol) M → 0 < M →
          |P - a * (L / M)| ≤ |a| * (L / M) * (1 / 2251799813685248) := by
    intro r i m a hr hi hc ha
    obtain ⟨M, hM, eM, h1, h2⟩ := hrow r i hr hi
    have : |a| ≤ m := by
      rcases ha with ha | ha
      · exact hc.re_le ha
      · exact hc.im_le ha
    rw [eM]
    obtain ⟨P, p1, p2, p3, p4, p5⟩ := row_stage hL hLr hL2 (hF r i hr hi a ha).1
      (le_trans this (hM.le hi hc)) h1 h2
    refine ⟨P, p1, p2, p3, p4, fun M' hM' => ?_⟩
    obtain rfl := hM.unique hM'
    exact p5
  have hcounted : ∀ r i m', r < nR → i < nPol * nCh →
      Counted (rowed Fl.r64 (.fin L) nPol nCh D r i) m' → ∃ m, Counted (D r i) m := by
    intro r i m' hr hi hc
    obtain ⟨M, hM, eM, h1, h2⟩ := hrow r i hr hi
    refine counted_scale ?_ hc
    rw [eM]
    rcases hM.1.eq_or_lt with h0 | hp
    · rw [← h0, rowFactor_zero]
      exact ⟨1, rfl, one_ne_zero⟩
    · have hone : ∃ P, Fl.mul Fl.r64 (.fin M) (Row.rowFactor Fl.r64 (.fin L) (.fin M)) = .fin P ∧
          P ≠ 0 := by
        obtain ⟨P, p1, p2, p3, _⟩ := row_stage hL hLr hL2 h1
          (le_of_eq (abs_of_pos hp)) h1 h2
        refine ⟨P, p1, ?_⟩
        intro h
        have := p3 hp.ne'
        rw [h, abs_zero] at this
        exact absurd this (not_le.mpr (Fl.zp_pos _))
      obtain ⟨P, p1, p2⟩ := hone
      cases hf : Row.rowFactor Fl.r64 (.fin L) (.fin M) with
      | nan => rw [hf] at p1; simp [Fl.mul] at p1
      | inf s => rw [hf] at p1; simp [Fl.mul, hp.ne'] at p1
      | fin x =>
        refine ⟨x, rfl, ?_⟩
        rintro rfl
        rw [hf] at p1
        simp only [Fl.mul, mul_zero, Fl.r64_zero] at p1
        exact p2 (by simpa using p1.symm)
  -- values counted after the row stage
  have hval : ∀ r i m', r < nR → i < nPol * nCh →
      Counted (rowed Fl.r64 (.fin L) nPol nCh D r i) m' →
      (m' = 0 ∨ 2 ^ (-427 : ℤ) ≤ m') ∧ m' ≤ 2 ^ (129 : ℤ) := by
    intro r i m' hr hi hc
    obtain ⟨m, hcm⟩ := hcounted r i m' hr hi hc
    obtain ⟨P, hP, rfl⟩ := hc.attained
    have aux : ∀ a, ((D r i).re = .fin a ∨ (D r i).im = .fin a) →
        Fl.mul Fl.r64 (.fin a) (Row.rowFactor Fl.r64 (.fin L) (pMax nPol nCh D r (i % nPol))) = .fin P →
        (|P| = 0 ∨ 2 ^ (-427 : ℤ) ≤ |P|) ∧ |P| ≤ 2 ^ (129 : ℤ) := by
      intro a ha hPa
      obtain ⟨P', p1, p2, p3, p4, _⟩ := hcomp r i m a hr hi hcm ha
      rw [p1] at hPa
      obtain rfl : P' = P := by simpa using hPa
      refine ⟨?_, p4⟩
      by_cases h0 : a = 0
      · left; rw [p2 h0, abs_zero]
      · exact Or.inr (p3 h0)
    simp only [rowed, Cx.scale] at hP
    rcases hP with hP | hP
    · cases hre : (D r i).re with
      | fin a => rw [hre] at hP; exact aux a (Or.inl hre) hP
      | nan => have h1 := mul_nonfinite (R := Fl.r64)
                 (f := Row.rowFactor Fl.r64 (.fin L) (pMax nPol nCh D r (i % nPol)))
                 (v := (D r i).re) (by rw [hre]; rfl)
               rw [hP] at h1; simp [Fl.isFinite] at h1
      | inf s => have h1 := mul_nonfinite (R := Fl.r64)
                   (f := Row.rowFactor Fl.r64 (.fin L) (pMax nPol nCh D r (i % nPol)))
                   (v := (D r i).re) (by rw [hre]; rfl)
                 rw [hP] at h1; simp [Fl.isFinite] at h1
    · cases him : (D r i).im with
      | fin a => rw [him] at hP; exact aux a (Or.inr him) hP
      | nan => have h1 := mul_nonfinite (R := Fl.r64)
                 (f := Row.rowFactor Fl.r64 (.fin L) (pMax nPol nCh D r (i % nPol)))
                 (v := (D r i).im) (by rw [him]; rfl)
               rw [hP] at h1; simp [Fl.isFinite] at h1
      | inf s => have h1 := mul_nonfinite (R := Fl.r64)
                   (f := Row.rowFactor Fl.r64 (.fin L) (pMax nPol nCh D r (i % nPol)))
                   (v := (D r i).im) (by rw [him]; rfl)
                 rw [hP] at h1; simp [Fl.isFinite] at h1
  -- counted visibilities stay counted
  have hkeep : ∀ r i m, r < nR → i < nPol * nCh → Counted (D r i) m →
      ∃ m', Counted (rowed Fl.r64 (.fin L) nPol nCh D r i) m' ∧ (m ≠ 0 → m' ≠ 0) := by
    intro r i m hr hi hc
    obtain ⟨a, ha, hb⟩ := id hc
    obtain ⟨P, p1, p2, p3, _⟩ := hcomp r i m a hr hi hc (Or.inl ha)
    have hnz : a ≠ 0 → |P| ≠ 0 := by
      intro h0 h1
      have := p3 h0
      rw [h1] at this
      exact absurd this (not_le.mpr (Fl.zp_pos _))
    have hre : (rowed Fl.r64 (.fin L) nPol nCh D r i).re = .fin P := by
      simp only [rowed, Cx.scale]
      rw [ha, p1]
    rcases hb with ⟨b', hb, hmb⟩ | ⟨hb, hmb⟩
    · obtain ⟨Q, q1, q2, q3, _⟩ := hcomp r i m b' hr hi hc (Or.inr hb)
      have him : (rowed Fl.r64 (.fin L) nPol nCh D r i).im = .fin Q := by
        simp only [rowed, Cx.scale]
        rw [hb, q1]
      refine ⟨max |P| |Q|, ⟨P, hre, Or.inl ⟨Q, him, rfl⟩⟩, ?_⟩
      intro hm0 h0
      have hP0 : |P| = 0 := le_antisymm (h0 ▸ le_max_left _ _) (abs_nonneg _)
      have hQ0 : |Q| = 0 := le_antisymm (h0 ▸ le_max_right _ _) (abs_nonneg _)
      by_cases ha0 : a = 0
      · by_cases hb0 : b' = 0
        · rw [ha0, hb0] at hmb
          simp at hmb
          exact hm0 hmb
        · have := q3 hb0
          rw [hQ0] at this
          exact absurd this (not_le.mpr (Fl.zp_pos _))
      · exact hnz ha0 hP0
    · have him : (rowed Fl.r64 (.fin L) nPol nCh D r i).im = .nan := by
        simp only [rowed, Cx.scale]
        rw [hb]
        cases Row.rowFactor Fl.r64 (.fin L) (pMax nPol nCh D r (i % nPol)) <;> rfl
      refine ⟨|P|, ⟨P, hre, Or.inr ⟨him, rfl⟩⟩, ?_⟩
      intro hm0
      apply hnz
      rintro rfl
      exact hm0 (by rw [hmb, abs_zero])
  -- the channel stage
  have hchan : ∀ i, i < nPol * nCh → ∃ C, maxFold (fun r => rowed Fl.r64 (.fin L) nPol nCh D r i) nR =
      .fin C ∧ IsMax nR (fun r => rowed Fl.r64 (.fin L) nPol nCh D r i) C ∧
      (C = 0 ∨ 2 ^ (-427 : ℤ) ≤ C) ∧ C ≤ 2 ^ (129 : ℤ) := by
    intro i hi
    obtain ⟨C, eC, hC⟩ := maxFold_spec (fun r => rowed Fl.r64 (.fin L) nPol nCh D r i) nR
    refine ⟨C, eC, hC, ?_⟩
    rcases hC.2.2 with h0 | ⟨r, hr, hc⟩
    · exact ⟨Or.inl h0, by rw [h0]; exact (Fl.zp_pos _).le⟩
    · exact hval r i C hr hi hc
  exact ⟨hrow, hcomp, hcounted, hkeep, hchan⟩

/-- **C21**: in float/double arithmetic every finite component of a counted visibility is handed to the
quantiser as a number in `[-L, L]`, and in every channel/polarisation that holds a non-zero counted
visibility in some row, some component is handed to the quantiser as exactly `L` or `-L`. -/
theorem rf_no_clip {e : Encoder} {b l : Nat → ℚ} {L : ℚ} (hT : Table e b l L)
    (hLr : Fl.Repr Fl.binary32 L) (dithered : Bool) (dith : Nat → Nat)
    (h : Holds nR (nPol * nCh) A D data)
    (hF : ∀ r i, r < nR → i < nPol * nCh → FloatVis (D r i))
    (metaB : Buf Fl) (hm : nPol * nCh + nR * nPol ≤ metaB.len) (sym : Buf Nat)
    (hs : nR * (nPol * nCh) * 2 ≤ sym.len) :
    ∃ (metaB' : Buf Fl) (sym' : Buf Nat) (Y : Nat → Nat → Cx),
      encode Fl.r32 Fl.r64 (encFn Fl.r32 e dithered) e.maxQuantity nPol nCh dith data
        metaB sym = some (metaB', sym') ∧
      (∀ r i, r < nR → i < nPol * nCh →
        encFn Fl.r32 e dithered (Y r i).re (dith ((r * (nPol * nCh) + i) * 2)) =
          some (sym'.get ((r * (nPol * nCh) + i) * 2)) ∧
        encFn Fl.r32 e dithered (Y r i).im (dith ((r * (nPol * nCh) + i) * 2 + 1)) =
          some (sym'.get ((r * (nPol * nCh) + i) * 2 + 1))) ∧
      (∀ r i m, r < nR → i < nPol * nCh → Counted (D r i) m → ∀ a,
        ((D r i).re = .fin a → ∃ y, (Y r i).re = .fin y ∧ |y| ≤ L) ∧
        ((D r i).im = .fin a → ∃ y, (Y r i).im = .fin y ∧ |y| ≤ L)) ∧
      (∀ i, i < nPol * nCh → (∃ r m, r < nR ∧ Counted (D r i) m ∧ m ≠ 0) →
        ∃ r y, r < nR ∧ |y| = L ∧ ((Y r i).re = .fin y ∨ (Y r i).im = .fin y)) := by
  obtain ⟨metaB', sym', e1, _, _, _, _, _, _, _, h8⟩ := encode_spec (RF := Fl.r32) (RD := Fl.r64)
    (hT.total Fl.r32 dithered) (maxLevel := e.maxQuantity) (dith := dith) h metaB hm sym hs
  have hL2 : L < 2 ^ (128 : ℤ) := lt_of_le_of_lt hT.le fltMax_lt
  rw [hT.maxQuantity] at h8
  obtain ⟨hrow, hcomp, hcounted, hkeep, hchan⟩ := row_stage_facts hT.pos hLr hL2 hF
  have hout : ∀ r i m' P C, r < nR → i < nPol * nCh →
      Counted (rowed Fl.r64 (.fin L) nPol nCh D r i) m' →
      ((rowed Fl.r64 (.fin L) nPol nCh D r i).re = .fin P ∨
        (rowed Fl.r64 (.fin L) nPol nCh D r i).im = .fin P) →
      maxFold (fun r => rowed Fl.r64 (.fin L) nPol nCh D r i) nR = .fin C →
      ∃ y, Fl.cast Fl.r32 (Fl.mul Fl.r64 (.fin P) (chF Fl.r64 (.fin L) nR nPol nCh D i)) = .fin y ∧
        |y| ≤ L ∧ (0 < C → |P| = C → |y| = L) := by
    intro r i m' P C hr hi hc hP hCe
    obtain ⟨C', eC, hC, hC0, hC2⟩ := hchan i hi
    rw [eC] at hCe
    obtain rfl : C' = C := by simpa using hCe
    have hPm : |P| ≤ m' := by
      rcases hP with h | h
      · exact hc.re_le h
      · exact hc.im_le h
    have hP0 : P = 0 ∨ 2 ^ (-427 : ℤ) ≤ |P| := by
      obtain ⟨m, hcm⟩ := hcounted r i m' hr hi hc
      have aux : ∀ v : Fl, v = (D r i).re ∨ v = (D r i).im → Fl.mul Fl.r64 v
          (Row.rowFactor Fl.r64 (.fin L) (pMax nPol nCh D r (i % nPol))) = .fin P →
          P = 0 ∨ 2 ^ (-427 : ℤ) ≤ |P| := by
        intro v hv hP
        by_cases hfin : ∃ a, v = .fin a
        · obtain ⟨a, rfl⟩ := hfin
          obtain ⟨P', p1, p2, p3, _⟩ := hcomp r i m a hr hi hcm
            (hv.imp Eq.symm Eq.symm)
          rw [p1] at hP
          obtain rfl : P' = P := by simpa using hP
          by_cases h0 : a = 0
          · exact Or.inl (p2 h0)
          · exact Or.inr (p3 h0)
        · have h1 := mul_nonfinite (R := Fl.r64) (v := v)
            (f := Row.rowFactor Fl.r64 (.fin L) (pMax nPol nCh D r (i % nPol)))
            (by cases v with
              | fin a => exact absurd ⟨a, rfl⟩ hfin
              | inf _ => rfl
              | nan => rfl)
          rw [hP] at h1
          simp [Fl.isFinite] at h1
      simp only [rowed, Cx.scale] at hP
      rcases hP with hP | hP
      · exact aux _ (Or.inl rfl) hP
      · exact aux _ (Or.inr rfl) hP
    unfold chF
    rw [eC]
    obtain ⟨y, y1, y2, y3, _⟩ :=
      chan_stage hT.pos hLr hL2 hP0 (le_trans hPm (hC.2.1 r m' hr hc)) hC0 hC2
    exact ⟨y, y1, y2, y3⟩
  refine ⟨metaB', sym', fun r i =>
    ⟨Fl.cast Fl.r32 (Fl.mul Fl.r64 (rowed Fl.r64 (.fin L) nPol nCh D r i).re
        (chF Fl.r64 (.fin L) nR nPol nCh D i)),
     Fl.cast Fl.r32 (Fl.mul Fl.r64 (rowed Fl.r64 (.fin L) nPol nCh D r i).im
        (chF Fl.r64 (.fin L) nR nPol nCh D i))⟩, e1, h8, ?_, ?_⟩
  · intro r i m hr hi hc a
    obtain ⟨m', hc', _⟩ := hkeep r i m hr hi hc
    obtain ⟨C, eC, _⟩ := hchan i hi
    have aux : ∀ a, ((D r i).re = .fin a ∨ (D r i).im = .fin a) →
        (∀ P, Fl.mul Fl.r64 (.fin a) (Row.rowFactor Fl.r64 (.fin L)
          (pMax nPol nCh D r (i % nPol))) = .fin P →
          ((rowed Fl.r64 (.fin L) nPol nCh D r i).re = .fin P ∨
            (rowed Fl.r64 (.fin L) nPol nCh D r i).im = .fin P)) →
        ∃ y, Fl.cast Fl.r32 (Fl.mul Fl.r64 (Fl.mul Fl.r64 (.fin a) (Row.rowFactor Fl.r64 (.fin L)
          (pMax nPol nCh D r (i % nPol)))) (chF Fl.r64 (.fin L) nR nPol nCh D i)) = .fin y ∧
          |y| ≤ L := by
      intro a ha hP
      obtain ⟨P, p1, _⟩ := hcomp r i m a hr hi hc ha
      obtain ⟨y, y1, y2, _⟩ := hout r i m' P C hr hi hc' (hP P p1) eC
      exact ⟨y, by rw [p1, y1], y2⟩
    constructor
    · intro ha
      have := aux a (Or.inl ha) (fun P hP => Or.inl (by simp only [rowed, Cx.scale]; rw [ha, hP]))
      simpa only [rowed, Cx.scale, ha] using this
    · intro ha
      have := aux a (Or.inr ha) (fun P hP => Or.inr (by simp only [rowed, Cx.scale]; rw [ha, hP]))
      simpa only [rowed, Cx.scale, ha] using this
  · rintro i hi ⟨r, m, hr, hc, hm0⟩
    obtain ⟨m', hc', hm0'⟩ := hkeep r i m hr hi hc
    obtain ⟨C, eC, hC, hC0, hC2⟩ := hchan i hi
    have hCpos : 0 < C :=
      lt_of_lt_of_le (lt_of_le_of_ne hc'.nonneg (Ne.symm (hm0' hm0))) (hC.2.1 r m' hr hc')
    rcases hC.2.2 with h0 | ⟨r', hr', hcr'⟩
    · exact absurd h0 hCpos.ne'
    · obtain ⟨P, hP, hPC⟩ := hcr'.attained
      obtain ⟨y, y1, _, y3⟩ := hout r' i C P C hr' hi hcr' hP eC
      refine ⟨r', y, hr', y3 hCpos hPC, ?_⟩
      simp only
      rcases hP with hP | hP
      · left; rw [hP, y1]
      · right; rw [hP, y1]

/-! ## C22 -/

/-- **C22**: exact arithmetic. `ρ` is the stored row factor, `M r p / L`; `c` the stored channel factor,
in `(0, 1]`. Decoding row `r` gives every finite component of a counted visibility back with an
error of at most the quantiser's error times both factors. -/
theorem rf_error {e : Encoder} {b l : Nat → ℚ} {L : ℚ} (hT : Table e b l L) (dithered : Bool)
    (dith : Nat → Nat) {δ : ℚ}
    (hA : Accurate (encFn Fl.exact e dithered) e.decode L δ)
    (h : Holds nR (nPol * nCh) A D data)
    (M : Nat → Nat → ℚ) (hM : ∀ r p, r < nR → p < nPol → RowPolMax nPol nCh D r p (M r p))
    (metaB : Buf Fl) (hm : nPol * nCh + nR * nPol ≤ metaB.len) (sym : Buf Nat)
    (hs : nR * (nPol * nCh) * 2 ≤ sym.len) :
    ∃ metaB' sym', encode Fl.exact Fl.exact (encFn Fl.exact e dithered) e.maxQuantity nPol nCh dith
        data metaB sym = some (metaB', sym') ∧
      ∀ (dest : Block Cx) (r a1 a2 : Nat), r < nR → r < dest.len →
        ∃ dest', decode Fl.exact Fl.exact e.decode nPol nCh metaB' dest sym' r a1 a2 = some dest' ∧
          (dest'.get r).antenna1 = a1 ∧ (dest'.get r).antenna2 = a2 ∧
          (∀ j, j ≠ r → dest'.get j = dest.get j) ∧
          ∀ i, i < nPol * nCh → ∃ c ρ, metaB'.get i = .fin c ∧
            metaB'.get (nPol * nCh + (r * nPol + i % nPol)) = .fin ρ ∧
            0 < c ∧ c ≤ 1 ∧ ρ = M r (i % nPol) / L ∧
            ∀ m, Counted (D r i) m → ∀ a,
              ((D r i).re = .fin a → ∃ y, ((dest'.get r).vis.get i).re = .fin y ∧
                |y - a| ≤ δ * c * ρ) ∧
              ((D r i).im = .fin a → ∃ y, ((dest'.get r).vis.get i).im = .fin y ∧
                |y - a| ≤ δ * c * ρ) := by
  obtain ⟨metaB', sym', e1, l1, l2, hch, hrw, _, hsq, _, h8⟩ := encode_spec (RF := Fl.exact)
    (RD := Fl.exact) (hT.total Fl.exact dithered) (maxLevel := e.maxQuantity) (dith := dith) h metaB hm
    sym hs
  refine ⟨metaB', sym', e1, ?_⟩
  intro dest r a1 a2 hr hd
  have hrow : (r * (nPol * nCh) + nPol * nCh) * 2 ≤ nR * (nPol * nCh) * 2 := by
    have : (r + 1) * (nPol * nCh) ≤ nR * (nPol * nCh) := Nat.mul_le_mul_right _ hr
    rw [Nat.add_mul, Nat.one_mul] at this
    omega
  have hrp : (r + 1) * nPol ≤ nR * nPol := Nat.mul_le_mul_right _ hr
  obtain ⟨dest', e2, _, d2, d3, d4, _, d6⟩ := decode_spec (RF := Fl.exact) (RD := Fl.exact)
    (nPol := nPol) (nCh := nCh) hT metaB' sym' dest r a1 a2 hd (by omega) (by omega)
    (fun j hj => hsq j (by omega))
  refine ⟨dest', e2, d3, d4, d2, ?_⟩
  intro i hi
  rw [hT.maxQuantity] at h8 hch hrw
  have hp : 0 < nPol := Nat.pos_of_ne_zero (by rintro rfl; simp at hi)
  have hL := hT.pos
  have hLne := hL.ne'
  have hpm : ∀ r', r' < nR → pMax nPol nCh D r' (i % nPol) = .fin (M r' (i % nPol)) :=
    fun r' hr' => maxFold_eq (hM r' _ hr' (Nat.mod_lt _ hp))
  -- one component in the row stage
  have hX : ∀ r' m a, r' < nR → Counted (D r' i) m → |a| ≤ m →
      ∃ X, Fl.mul Fl.exact (.fin a) (Row.rowFactor Fl.exact (.fin L)
        (pMax nPol nCh D r' (i % nPol))) = .fin X ∧ |X| ≤ L ∧ X * (M r' (i % nPol) / L) = a := by
    intro r' m a hr' hc ham
    have hMr := hM r' (i % nPol) hr' (Nat.mod_lt _ hp)
    have haM := le_trans ham (hMr.le hi hc)
    rw [hpm r' hr']
    rcases hMr.1.eq_or_lt with h0 | hpos
    · rw [← h0] at haM ⊢
      have ha0 : a = 0 := abs_eq_zero.mp (le_antisymm haM (abs_nonneg a))
      subst ha0
      refine ⟨0, ?_, by simpa using hL.le, by simp⟩
      rw [rowFactor_zero]
      simp [Fl.mul, Fl.exact]
    · refine ⟨a * (L / M r' (i % nPol)), ?_, ?_, by field_simp⟩
      · rw [rowFactor_pos hpos.ne', mul_div_exact hpos.ne']
      · rw [abs_mul, abs_of_pos (div_pos hL hpos), ← mul_div_assoc, div_le_iff₀ hpos, mul_comm L]
        exact mul_le_mul_of_nonneg_right haM hL.le
  -- the row factor is a non-zero number
  have hfac : ∀ r', r' < nR → ∃ x, Row.rowFactor Fl.exact (.fin L) (pMax nPol nCh D r' (i % nPol)) =
      .fin x ∧ x ≠ 0 := by
    intro r' hr'
    rw [hpm r' hr']
    have hMr := hM r' (i % nPol) hr' (Nat.mod_lt _ hp)
    rcases hMr.1.eq_or_lt with h0 | hpos
    · rw [← h0, rowFactor_zero]
      exact ⟨1, rfl, one_ne_zero⟩
    · rw [rowFactor_pos hpos.ne']
      exact ⟨L / M r' (i % nPol), by simp [Fl.div, hpos.ne', Fl.exact], (div_pos hL hpos).ne'⟩
  obtain ⟨C, eC, hC⟩ := maxFold_spec (fun r => rowed Fl.exact (.fin L) nPol nCh D r i) nR
  have hCL : C ≤ L := by
    rcases hC.2.2 with h0 | ⟨r', hr', hc⟩
    · rw [h0]; exact hL.le
    · obtain ⟨m, hcm⟩ := counted_scale (hfac r' hr') hc
      obtain ⟨P, hP, hPC⟩ := hc.attained
      obtain ⟨x, hx, _⟩ := hfac r' hr'
      rw [← hPC]
      simp only [rowed, Cx.scale] at hP
      have aux : ∀ v : Fl, (v = (D r' i).re ∨ v = (D r' i).im) → Fl.mul Fl.exact v
          (Row.rowFactor Fl.exact (.fin L) (pMax nPol nCh D r' (i % nPol))) = .fin P → |P| ≤ L := by
        intro v hv hP
        by_cases hfin : ∃ a, v = .fin a
        · obtain ⟨a, rfl⟩ := hfin
          obtain ⟨X, x1, x2, _⟩ := hX r' m a hr' hcm (by
            rcases hv with hv | hv
            · exact hcm.re_le hv.symm
            · exact hcm.im_le hv.symm)
          rw [x1] at hP
          obtain rfl : X = P := by simpa using hP
          exact x2
        · have h1 := mul_nonfinite (R := Fl.exact) (v := v)
            (f := Row.rowFactor Fl.exact (.fin L) (pMax nPol nCh D r' (i % nPol)))
            (by cases v with
              | fin a => exact absurd ⟨a, rfl⟩ hfin
              | inf _ => rfl
              | nan => rfl)
          rw [hP] at h1
          simp [Fl.isFinite] at h1
      rcases hP with hP | hP
      · exact aux _ (Or.inl rfl) hP
      · exact aux _ (Or.inr rfl) hP
  -- the channel factor
  have hcf : ∃ c, 0 < c ∧ c ≤ 1 ∧ chF Fl.exact (.fin L) nR nPol nCh D i = .fin (1 / c) ∧
      (C = 0 ∨ c = C / L) := by
    unfold chF
    rw [eC]
    rcases hC.1.eq_or_lt with h0 | hpos
    · refine ⟨1, one_pos, le_refl _, ?_, Or.inl h0.symm⟩
      rw [← h0]
      simp [chanFactor, Fl.eq]
    · refine ⟨C / L, div_pos hpos hL, (div_le_one hL).mpr hCL, ?_, Or.inr rfl⟩
      simp [chanFactor, Fl.eq, hpos.ne', hLne, Fl.div, Fl.exact]
  obtain ⟨c, c0, c1, ec, hcC⟩ := hcf
  have emc : metaB'.get i = .fin c := by
    rw [hch i hi, ec]
    simp [Fl.div, c0.ne', Fl.exact, Fl.cast]
  have emr : metaB'.get (nPol * nCh + (r * nPol + i % nPol)) = .fin (M r (i % nPol) / L) := by
    rw [hrw r _ hr (Nat.mod_lt _ hp), hpm r hr]
    simp [rowMeta, Fl.eq, hLne, Fl.div, Fl.exact, Fl.cast]
  refine ⟨c, M r (i % nPol) / L, emc, emr, c0, c1, rfl, ?_⟩
  intro m hc a
  have hlt := flat_lt hr hi
  have hρ : 0 ≤ M r (i % nPol) / L := div_nonneg (hM r _ hr (Nat.mod_lt _ hp)).1 hL.le
  -- the component after both stages
  have hkeep : ∃ m', Counted (rowed Fl.exact (.fin L) nPol nCh D r i) m' := by
    obtain ⟨a, ha, hb⟩ := id hc
    obtain ⟨X, x1, _⟩ := hX r m a hr hc (hc.re_le ha)
    have hre : (rowed Fl.exact (.fin L) nPol nCh D r i).re = .fin X := by
      simp only [rowed, Cx.scale]; rw [ha, x1]
    rcases hb with ⟨b', hb, _⟩ | ⟨hb, _⟩
    · obtain ⟨X2, x2, _⟩ := hX r m b' hr hc (hc.im_le hb)
      exact ⟨max |X| |X2|, X, hre, Or.inl ⟨X2, by simp only [rowed, Cx.scale]; rw [hb, x2], rfl⟩⟩
    · refine ⟨|X|, X, hre, Or.inr ⟨?_, rfl⟩⟩
      simp only [rowed, Cx.scale]
      rw [hb]
      cases Row.rowFactor Fl.exact (.fin L) (pMax nPol nCh D r (i % nPol)) <;> rfl
  obtain ⟨m', hc'⟩ := hkeep
  have main : ∀ (a : ℚ) (d s : Nat), |a| ≤ m → s < e.quantCount →
      (∀ X, Fl.mul Fl.exact (.fin a) (Row.rowFactor Fl.exact (.fin L)
        (pMax nPol nCh D r (i % nPol))) = .fin X → |X| ≤ m') →
      encFn Fl.exact e dithered (Fl.cast Fl.exact (Fl.mul Fl.exact (Fl.mul Fl.exact (.fin a)
        (Row.rowFactor Fl.exact (.fin L) (pMax nPol nCh D r (i % nPol))))
        (chF Fl.exact (.fin L) nR nPol nCh D i))) d = some s →
      ∃ y, Fl.cast Fl.exact (Fl.mul Fl.exact (e.level s) (Fl.mul Fl.exact (.fin c)
        (.fin (M r (i % nPol) / L)))) = .fin y ∧ |y - a| ≤ δ * c * (M r (i % nPol) / L) := by
    intro a d s ham hs hXm henc
    obtain ⟨X, x1, x2, x3⟩ := hX r m a hr hc ham
    have hXC := le_trans (hXm X x1) (hC.2.1 r m' hr hc')
    rw [x1, ec, show Fl.mul Fl.exact (.fin X) (.fin (1 / c)) = .fin (X * (1 / c)) from rfl,
      cast_exact] at henc
    have hle : |X * (1 / c)| ≤ L := by
      rw [abs_mul, abs_of_pos (by positivity : (0 : ℚ) < 1 / c), mul_one_div, div_le_iff₀ c0]
      rcases hcC with h0 | h0
      · rw [h0] at hXC
        rw [le_antisymm hXC (abs_nonneg X)]
        positivity
      · rw [h0, mul_div_cancel₀ _ hLne]
        exact hXC
    obtain ⟨s', y', f1, f2, f3⟩ := hA _ d hle
    obtain rfl : s' = s := by rw [f1] at henc; simpa using henc
    have elev : e.level s' = .fin y' := by
      have := hT.decode_some hs
      rw [f2] at this
      simpa using this.symm
    refine ⟨y' * (c * (M r (i % nPol) / L)), by rw [elev]; rfl, ?_⟩
    have : y' * (c * (M r (i % nPol) / L)) - a = (y' - X * (1 / c)) * (c * (M r (i % nPol) / L)) := by
      conv_lhs => rw [← x3]
      field_simp
    rw [this, abs_mul, abs_of_nonneg (mul_nonneg c0.le hρ), mul_assoc]
    exact mul_le_mul_of_nonneg_right f3 (mul_nonneg c0.le hρ)
  have h8' := h8 r i hr hi
  simp only [rowed, Cx.scale] at h8'
  rw [d6 i hi, emc, emr]
  constructor
  · intro ha
    rw [ha] at h8'
    exact main a _ _ (hc.re_le ha) (hsq _ (by omega)) (fun X x1 => hc'.re_le (by
      simp only [rowed, Cx.scale]; rw [ha, x1])) h8'.1
  · intro ha
    rw [ha] at h8'
    exact main a _ _ (hc.im_le ha) (hsq _ (by omega)) (fun X x1 => hc'.im_le (by
      simp only [rowed, Cx.scale]; rw [ha, x1])) h8'.2

/-! ## C23 -/

/-- **C23** for row-frequency normalisation: non-finite components decode to NaN, for any rounding. -/
theorem rf_nan {RF RD : ℚ → Fl}
    {e : Encoder} {b l : Nat → ℚ} {L : ℚ} (hT : Table e b l L) (dithered : Bool)
    (dith : Nat → Nat) (h : Holds nR (nPol * nCh) A D data)
    (metaB : Buf Fl) (hm : nPol * nCh + nR * nPol ≤ metaB.len) (sym : Buf Nat)
    (hs : nR * (nPol * nCh) * 2 ≤ sym.len) :
    ∃ metaB' sym', encode RF RD (encFn RF e dithered) e.maxQuantity nPol nCh dith data metaB sym =
        some (metaB', sym') ∧
      ∀ (dest : Block Cx) (r a1 a2 : Nat), r < nR → r < dest.len →
        ∃ dest', decode RF RD e.decode nPol nCh metaB' dest sym' r a1 a2 = some dest' ∧
          ∀ i, i < nPol * nCh →
            ((D r i).re.isFinite = false → ((dest'.get r).vis.get i).re = .nan) ∧
            ((D r i).im.isFinite = false → ((dest'.get r).vis.get i).im = .nan) := by
  obtain ⟨metaB', sym', e1, l1, l2, _, _, _, hsq, _, h8⟩ := encode_spec (RF := RF)
    (RD := RD) (hT.total RF dithered) (maxLevel := e.maxQuantity) (dith := dith) h metaB hm
    sym hs
  refine ⟨metaB', sym', e1, ?_⟩
  intro dest r a1 a2 hr hd
  have hrow : (r * (nPol * nCh) + nPol * nCh) * 2 ≤ nR * (nPol * nCh) * 2 := by
    have : (r + 1) * (nPol * nCh) ≤ nR * (nPol * nCh) := Nat.mul_le_mul_right _ hr
    rw [Nat.add_mul, Nat.one_mul] at this
    omega
  have hrp : (r + 1) * nPol ≤ nR * nPol := Nat.mul_le_mul_right _ hr
  obtain ⟨dest', e2, _, d2, d3, d4, _, d6⟩ := decode_spec (RF := RF) (RD := RD)
    (nPol := nPol) (nCh := nCh) hT metaB' sym' dest r a1 a2 hd (by omega) (by omega)
    (fun j hj => hsq j (by omega))
  refine ⟨dest', e2, ?_⟩
  intro i hi
  rw [d6 i hi]
  have hnan : ∀ f, Fl.cast RF (Fl.mul RD .nan f) = .nan := by intro f; cases f <;> rfl
  constructor
  · intro hn
    simp only
    rw [hT.nonfinite RF dithered (cast_nonfinite (mul_nonfinite (mul_nonfinite hn))) _
      (h8 r i hr hi).1, hnan]
  · intro hn
    simp only
    rw [hT.nonfinite RF dithered (cast_nonfinite (mul_nonfinite (mul_nonfinite hn))) _
      (h8 r i hr hi).2, hnan]

/-- **C23**, exact arithmetic: visibilities of an all-zero row (of one polarisation) decode to zero and
visibilities without non-finite component decode to finite components. -/
theorem rf_zero_finite {e : Encoder} {b l : Nat → ℚ} {L : ℚ} (hT : Table e b l L) (dithered : Bool)
    (dith : Nat → Nat) {δ : ℚ}
    (hA : Accurate (encFn Fl.exact e dithered) e.decode L δ)
    (h : Holds nR (nPol * nCh) A D data)
    (metaB : Buf Fl) (hm : nPol * nCh + nR * nPol ≤ metaB.len) (sym : Buf Nat)
    (hs : nR * (nPol * nCh) * 2 ≤ sym.len) :
    ∃ metaB' sym', encode Fl.exact Fl.exact (encFn Fl.exact e dithered) e.maxQuantity nPol nCh dith
        data metaB sym = some (metaB', sym') ∧
      ∀ (dest : Block Cx) (r a1 a2 : Nat), r < nR → r < dest.len →
        ∃ dest', decode Fl.exact Fl.exact e.decode nPol nCh metaB' dest sym' r a1 a2 = some dest' ∧
          (∀ p, p < nPol → (∀ c, c < nCh → D r (c * nPol + p) = ⟨.fin 0, .fin 0⟩) →
            ∀ c, c < nCh → (dest'.get r).vis.get (c * nPol + p) = ⟨.fin 0, .fin 0⟩) ∧
          ∀ i x y, i < nPol * nCh → D r i = ⟨.fin x, .fin y⟩ →
            ∃ x' y', (dest'.get r).vis.get i = ⟨.fin x', .fin y'⟩ := by
  have hex : ∀ r p, ∃ M, RowPolMax nPol nCh D r p M := fun r p => by
    obtain ⟨M, h, _⟩ := rowPolMax_exists nPol nCh D r p
    exact ⟨M, h⟩
  choose M hM using hex
  obtain ⟨metaB', sym', e1, hdec⟩ := rf_error hT dithered dith hA h M (fun r p _ _ => hM r p) metaB hm
    sym hs
  refine ⟨metaB', sym', e1, ?_⟩
  intro dest r a1 a2 hr hd
  obtain ⟨dest', e2, _, _, _, herr⟩ := hdec dest r a1 a2 hr hd
  refine ⟨dest', e2, ?_, ?_⟩
  · intro p hp hz c hc
    have hi : c * nPol + p < nPol * nCh := by rw [Nat.mul_comm nPol]; exact flat_lt hc hp
    have hM0 : M r p = 0 := by
      refine (hM r p).unique ⟨le_refl _, ?_, Or.inl rfl⟩
      intro j m hj hcj
      obtain ⟨a, h1, h2⟩ := hcj.attained
      simp only at h1
      rw [hz j hj] at h1
      have : a = 0 := by rcases h1 with h1 | h1 <;> simpa using h1.symm
      rw [← h2, this, abs_zero]
    obtain ⟨c', ρ, _, _, _, _, hρ, hcnt⟩ := herr _ hi
    rw [flat_mod hp, hM0, zero_div] at hρ
    obtain ⟨hre, him⟩ := hcnt 0 ⟨0, by rw [hz c hc], Or.inl ⟨0, by rw [hz c hc], by simp⟩⟩ 0
    obtain ⟨y1, f1, g1⟩ := hre (by rw [hz c hc])
    obtain ⟨y2, f2, g2⟩ := him (by rw [hz c hc])
    rw [hρ, mul_zero, sub_zero] at g1 g2
    have z1 : y1 = 0 := abs_eq_zero.mp (le_antisymm g1 (abs_nonneg _))
    have z2 : y2 = 0 := abs_eq_zero.mp (le_antisymm g2 (abs_nonneg _))
    rw [z1] at f1
    rw [z2] at f2
    generalize (dest'.get r).vis.get (c * nPol + p) = v at f1 f2
    cases v
    simp only at f1 f2
    rw [f1, f2]
  · intro i x y hi hxy
    obtain ⟨c', ρ, _, _, _, _, _, hcnt⟩ := herr _ hi
    have hc : Counted (D r i) (max |x| |y|) := ⟨x, by rw [hxy], Or.inl ⟨y, by rw [hxy], rfl⟩⟩
    obtain ⟨y1, f1, _⟩ := (hcnt _ hc x).1 (by rw [hxy])
    obtain ⟨y2, f2, _⟩ := (hcnt _ hc y).2 (by rw [hxy])
    exact ⟨y1, y2, by rw [← f1, ← f2]⟩

/-! ## Non-vacuity: the hypotheses hold for two rows, one polarisation, three channels. -/

example : ∃ metaB' sym', encode Fl.exact Fl.exact (encFn Fl.exact Row.smallTable true)
    Row.smallTable.maxQuantity 1 3 (fun j => j) ⟨2, fun r => ⟨r, r + 1, ⟨3, Row.sampleVis⟩⟩⟩
    ⟨5, fun _ => .nan⟩ ⟨12, fun _ => 0⟩ = some (metaB', sym') := by
  obtain ⟨m, s, h, _⟩ := rf_error (nR := 2) (nPol := 1) (nCh := 3) (A := fun r => (r, r + 1))
    (D := fun _ => Row.sampleVis) (M := fun _ _ => 4)
    (data := ⟨2, fun r => ⟨r, r + 1, ⟨3, Row.sampleVis⟩⟩⟩) Row.smallTable_ok true (fun j => j)
    (dither_accurate Row.smallTable_ok Fl.exact 1 (by norm_num) (by norm_num)
      (fun k _ => by push_cast; linarith))
    ⟨rfl, fun _ _ => rfl, fun _ _ => rfl, fun _ _ _ _ => rfl⟩
    (fun r p _ hp => by
      obtain rfl : p = 0 := by omega
      have h0 : Counted (Row.sampleVis 0) 4 := ⟨3, rfl, Or.inl ⟨-4, rfl, by norm_num⟩⟩
      refine ⟨by norm_num, ?_, Or.inr ⟨0, by norm_num, h0⟩⟩
      intro i m _ hc
      rcases Nat.eq_zero_or_pos i with h | h
      · rw [h] at hc; exact le_of_eq (hc.unique h0)
      · obtain ⟨a, h1, _⟩ := hc
        have hi0 : i ≠ 0 := by omega
        simp only [Row.sampleVis, Nat.mul_one, Nat.add_zero, hi0, if_false] at h1
        split at h1 <;> simp at h1)
    ⟨5, fun _ => .nan⟩ (by norm_num) ⟨12, fun _ => 0⟩ (by norm_num)
  exact ⟨m, s, h⟩

end Dysco.RF
