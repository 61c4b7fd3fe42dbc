import Verif.NormSpec

/-!
# Properties C19, C20, C23 and C24 for row normalisation
-/

namespace Dysco.Row
open TimeBlock Stochastic

variable {nR nPol nCh : Nat} {A : Nat → Nat × Nat} {D : Nat → Nat → Cx} {data : Block Cx}

/-- What `encode` computes, for any rounding: the scaled data `Y`, the metadata and the symbols. -/
theorem encode_spec {RF RD : ℚ → Fl} {enc : Fl → Nat → Option Nat} {q : Nat} (hq : Total enc q)
    {maxLevel : Fl} {dith : Nat → Nat} (h : Holds nR (nPol * nCh) A D data) (metaB : Buf Fl)
    (hm : nR ≤ metaB.len) (sym : Buf Nat) (hs : nR * (nPol * nCh) * 2 ≤ sym.len) :
    ∃ metaB' sym', encode RF RD enc maxLevel nPol nCh dith data metaB sym = some (metaB', sym') ∧
      metaB'.len = metaB.len ∧ sym'.len = sym.len ∧
      (∀ r, r < nR → metaB'.get r = Fl.cast RF (Fl.div RD (maxFold (D r) (nPol * nCh)) maxLevel)) ∧
      (∀ j, nR ≤ j → metaB'.get j = metaB.get j) ∧
      (∀ j, j < nR * (nPol * nCh) * 2 → sym'.get j < q) ∧
      (∀ j, nR * (nPol * nCh) * 2 ≤ j → sym'.get j = sym.get j) ∧
      (∀ r i, r < nR → i < nPol * nCh →
        enc (Fl.cast RF (Fl.mul RD (D r i).re
            (rowFactor RD maxLevel (maxFold (D r) (nPol * nCh)))))
          (dith ((r * (nPol * nCh) + i) * 2)) = some (sym'.get ((r * (nPol * nCh) + i) * 2)) ∧
        enc (Fl.cast RF (Fl.mul RD (D r i).im
            (rowFactor RD maxLevel (maxFold (D r) (nPol * nCh)))))
          (dith ((r * (nPol * nCh) + i) * 2 + 1)) =
            some (sym'.get ((r * (nPol * nCh) + i) * 2 + 1))) := by
  obtain ⟨D', data', metaB', e1, h1, h2, h3, h4, h5⟩ :=
    normalize_spec (RF := RF) (RD := RD) (maxLevel := maxLevel) h metaB hm
  obtain ⟨sym', e2, g1, g2, g3, g4⟩ := quantise_total (RF := RF) hq (dith := dith) h1 sym hs
  refine ⟨metaB', sym', ?_, h3, g1, h4, h5, g2, g3, ?_⟩
  · unfold encode
    rw [e1, Option.bind_some]
    simp only
    rw [e2]
    rfl
  · intro r i hr hi
    have := g4 r i hr hi
    rw [h2 r i hr hi] at this
    exact this

/-- What `decode` of row `r` gives. -/
theorem decode_spec {RF RD : ℚ → Fl} {e : Encoder} {b l : Nat → ℚ} {L : ℚ} (hT : Table e b l L)
    (metaB : Buf Fl) (sym : Buf Nat) (dest : Block Cx) (r a1 a2 : Nat) (hr : r < dest.len)
    (hm : r < metaB.len) (hs : (r * (nPol * nCh) + nPol * nCh) * 2 ≤ sym.len)
    (hq : ∀ j, j < (r * (nPol * nCh) + nPol * nCh) * 2 → sym.get j < e.quantCount) :
    ∃ dest', decode RF RD e.decode nPol nCh metaB dest sym r a1 a2 = some dest' ∧
      dest'.len = dest.len ∧ (∀ j, j ≠ r → dest'.get j = dest.get j) ∧
      (dest'.get r).antenna1 = a1 ∧ (dest'.get r).antenna2 = a2 ∧
      (dest'.get r).vis.len = nPol * nCh ∧
      ∀ i, i < nPol * nCh → (dest'.get r).vis.get i =
        ⟨Fl.cast RF (Fl.mul RD (e.level (sym.get ((r * (nPol * nCh) + i) * 2))) (metaB.get r)),
         Fl.cast RF (Fl.mul RD (e.level (sym.get ((r * (nPol * nCh) + i) * 2 + 1))) (metaB.get r))⟩ :=
  decodeRow_spec (n := nPol * nCh) (RF := RF) (RD := RD) (dec := e.decode)
    (factor := fun _ => metaB.rd r) dest sym r a1 a2 hr hs (fun _ => metaB.get r)
    (fun _ _ => Buf.rd_some hm) (fun j => e.level (sym.get j))
    (fun j _ hj => hT.decode_some (hq j hj))

/-! ## C19 -/

/-- One component in float/double arithmetic: `a` is a float within the row maximum `M`. -/
theorem component_real {a M L : ℚ} (hL : 0 < L) (hLr : Fl.Repr Fl.binary32 L)
    (hL2 : L < 2 ^ (128 : ℤ)) (ha : Fl.Repr Fl.binary32 a) (haM : |a| ≤ M)
    (hMr : Fl.Repr Fl.binary32 M) (hM2 : M < 2 ^ (128 : ℤ)) :
    ∃ y, Fl.cast Fl.r32 (Fl.mul Fl.r64 (.fin a) (rowFactor Fl.r64 (.fin L) (.fin M))) = .fin y ∧
      |y| ≤ L ∧ (0 < M → |y - a * (L / M)| ≤ L * (1 / 16000000) + 2 ^ (-150 : ℤ)) ∧
      (0 < M → |a| = M → |y| = L) ∧ (a = 0 → y = 0) := by
  rcases (le_trans (abs_nonneg a) haM).eq_or_lt with h0 | hM
  · rw [← h0] at haM ⊢
    have ha0 : a = 0 := abs_eq_zero.mp (le_antisymm haM (abs_nonneg a))
    subst ha0
    refine ⟨0, ?_, by simpa using hL.le, fun h => absurd h (lt_irrefl _),
      fun h => absurd h (lt_irrefl _), fun _ => rfl⟩
    rw [rowFactor_zero]
    simp only [Fl.mul, zero_mul, Fl.r64_zero, Fl.cast, Fl.r32_zero]
  · rw [rowFactor_pos hM.ne']
    have z : ∀ {i j : ℤ}, i ≤ j → (2 : ℚ) ^ i ≤ 2 ^ j := fun h => zpow_le_zpow_right₀ (by norm_num) h
    have hLge := Fl.repr32_ge hLr hL
    have hMge := Fl.repr32_ge hMr hM
    have hf1 : (2 : ℚ) ^ (-277 : ℤ) ≤ L / M := by
      rw [le_div_iff₀ hM]
      refine le_trans (mul_le_mul_of_nonneg_left hM2.le (Fl.zp_pos _).le) ?_
      rw [← zpow_add₀ (by norm_num)]
      exact le_trans (z (by norm_num)) hLge
    have hf2 : L / M ≤ 2 ^ (277 : ℤ) := by
      rw [div_le_iff₀ hM]
      refine le_trans hL2.le (le_trans ?_ (mul_le_mul_of_nonneg_left hMge (Fl.zp_pos _).le))
      rw [← zpow_add₀ (by norm_num)]
      exact z (by norm_num)
    have hX : |a| * (L / M) ≤ L := by
      rw [← mul_div_assoc, div_le_iff₀ hM, mul_comm L]
      exact mul_le_mul_of_nonneg_right haM hL.le
    obtain ⟨P, eP, hP⟩ := Fl.scale64 (a := a) hM (le_trans (z (by norm_num)) hf1)
      (le_trans hf2 (z (by norm_num)))
      (by
        by_cases h : a = 0
        · exact Or.inl h
        · right
          have h1 := Fl.repr32_ge ha.abs (abs_pos.mpr h)
          refine le_trans ?_ (mul_le_mul h1 hf1 (Fl.zp_pos _).le (abs_nonneg a))
          rw [← zpow_add₀ (by norm_num)]
          exact z (by norm_num))
      (le_trans hX (le_trans hL2.le (z (by norm_num))))
    have hXa : |a * (L / M)| = |a| * (L / M) := by
      rw [abs_mul, abs_of_pos (div_pos hL hM)]
    rw [← hXa] at hX hP
    obtain ⟨y, ey, y1, y2, y3⟩ := Fl.cast32_le hL hLr hL2 hX hP
    refine ⟨y, by rw [eP, ey], y1, fun _ => y2, ?_, ?_⟩
    · intro _ h
      apply y3
      rw [hXa, h]
      field_simp
    · intro h
      subst h
      rw [zero_mul, abs_zero, zero_mul, sub_zero] at hP
      have : P = 0 := abs_eq_zero.mp (le_antisymm hP (abs_nonneg P))
      subst this
      simp only [Fl.cast, Fl.r32_zero] at ey
      simpa using ey.symm

theorem counted_float {v : Cx} {m : ℚ} (hF : FloatVis v) (hc : Counted v m) :
    Fl.Repr Fl.binary32 m ∧ m < 2 ^ (128 : ℤ) := by
  obtain ⟨a, h1, h2⟩ := hc.attained
  obtain ⟨h3, h4⟩ := hF a h1
  rw [← h2]
  exact ⟨h3.abs, h4⟩

theorem max_float {n : Nat} {v : Nat → Cx} {M : ℚ} (hM : IsMax n v M)
    (hF : ∀ i, i < n → FloatVis (v i)) : Fl.Repr Fl.binary32 M ∧ M < 2 ^ (128 : ℤ) := by
  rcases hM.2.2 with h | ⟨i, hi, hc⟩
  · rw [h]; exact ⟨Fl.Repr.zero _, by positivity⟩
  · exact counted_float (hF i hi) hc

/-- **C19**: in float/double arithmetic, the value `Y` handed to the quantiser for every finite component
of a counted visibility is within `[-L, L]`; it is the component times `L / M`, up to rounding, and the
row maximum is mapped to exactly `±L`. -/
theorem row_no_clip {e : Encoder} {b l : Nat → ℚ} {L : ℚ} (hT : Table e b l L)
    (hLr : Fl.Repr Fl.binary32 L) (dithered : Bool) (dith : Nat → Nat)
    (h : Holds nR (nPol * nCh) A D data)
    (hF : ∀ r i, r < nR → i < nPol * nCh → FloatVis (D r i))
    (M : Nat → ℚ) (hM : ∀ r, r < nR → IsMax (nPol * nCh) (D r) (M r))
    (metaB : Buf Fl) (hm : nR ≤ metaB.len) (sym : Buf Nat) (hs : nR * (nPol * nCh) * 2 ≤ sym.len) :
    ∃ (metaB' : Buf Fl) (sym' : Buf Nat) (Y : Nat → Nat → Cx), encode Fl.r32 Fl.r64 (encFn Fl.r32 e dithered) e.maxQuantity nPol nCh dith data
        metaB sym = some (metaB', sym') ∧
      ∀ r i, r < nR → i < nPol * nCh →
        encFn Fl.r32 e dithered (Y r i).re (dith ((r * (nPol * nCh) + i) * 2)) =
          some (sym'.get ((r * (nPol * nCh) + i) * 2)) ∧
        encFn Fl.r32 e dithered (Y r i).im (dith ((r * (nPol * nCh) + i) * 2 + 1)) =
          some (sym'.get ((r * (nPol * nCh) + i) * 2 + 1)) ∧
        ∀ m, Counted (D r i) m → ∀ a,
          ((D r i).re = .fin a → ∃ y, (Y r i).re = .fin y ∧ |y| ≤ L ∧
            (0 < M r → |y - a * (L / M r)| ≤ L * (1 / 16000000) + 2 ^ (-150 : ℤ)) ∧
            (0 < M r → |a| = M r → |y| = L)) ∧
          ((D r i).im = .fin a → ∃ y, (Y r i).im = .fin y ∧ |y| ≤ L ∧
            (0 < M r → |y - a * (L / M r)| ≤ L * (1 / 16000000) + 2 ^ (-150 : ℤ)) ∧
            (0 < M r → |a| = M r → |y| = L)) := by
  obtain ⟨metaB', sym', e1, _, _, _, _, _, _, h8⟩ := encode_spec (RF := Fl.r32) (RD := Fl.r64)
    (hT.total Fl.r32 dithered) (maxLevel := e.maxQuantity) (dith := dith) h metaB hm sym hs
  refine ⟨metaB', sym', fun r i =>
    ⟨Fl.cast Fl.r32 (Fl.mul Fl.r64 (D r i).re
      (rowFactor Fl.r64 e.maxQuantity (maxFold (D r) (nPol * nCh)))),
     Fl.cast Fl.r32 (Fl.mul Fl.r64 (D r i).im
      (rowFactor Fl.r64 e.maxQuantity (maxFold (D r) (nPol * nCh))))⟩, e1, ?_⟩
  intro r i hr hi
  refine ⟨(h8 r i hr hi).1, (h8 r i hr hi).2, ?_⟩
  intro m hc a
  have hL2 : L < 2 ^ (128 : ℤ) := lt_of_le_of_lt hT.le fltMax_lt
  obtain ⟨hMr, hM2⟩ := max_float (hM r hr) (fun i hi => hF r i hr hi)
  have hmM := (hM r hr).2.1 i m hi hc
  simp only [maxFold_eq (hM r hr), hT.maxQuantity]
  constructor
  · intro ha
    rw [ha]
    obtain ⟨y, h1, h2, h3, h4, _⟩ := component_real hT.pos hLr hL2 (hF r i hr hi a (Or.inl ha)).1
      (le_trans (hc.re_le ha) hmM) hMr hM2
    exact ⟨y, h1, h2, h3, h4⟩
  · intro ha
    rw [ha]
    obtain ⟨y, h1, h2, h3, h4, _⟩ := component_real hT.pos hLr hL2 (hF r i hr hi a (Or.inr ha)).1
      (le_trans (hc.im_le ha) hmM) hMr hM2
    exact ⟨y, h1, h2, h3, h4⟩

/-! ## C20 -/

/-- One component in exact arithmetic. -/
theorem component_exact {a M L δ : ℚ} (hL : 0 < L) (haM : |a| ≤ M)
    {enc : Fl → Nat → Option Nat} {dec : Nat → Option Fl} (hA : Accurate enc dec L δ) {d s : Nat}
    (hs : enc (Fl.cast Fl.exact (Fl.mul Fl.exact (.fin a) (rowFactor Fl.exact (.fin L) (.fin M)))) d =
      some s) {lev : Fl} (hd : dec s = some lev) :
    ∃ y, Fl.cast Fl.exact (Fl.mul Fl.exact lev
        (Fl.cast Fl.exact (Fl.div Fl.exact (.fin M) (.fin L)))) = .fin y ∧ |y - a| ≤ δ * (M / L) := by
  have hM0 := le_trans (abs_nonneg a) haM
  have key : ∃ x, |x| ≤ L ∧ a = x * (M / L) ∧
      Fl.cast Fl.exact (Fl.mul Fl.exact (.fin a) (rowFactor Fl.exact (.fin L) (.fin M))) = .fin x := by
    rcases hM0.eq_or_lt with h0 | hM
    · rw [← h0] at haM ⊢
      have ha0 : a = 0 := abs_eq_zero.mp (le_antisymm haM (abs_nonneg a))
      subst ha0
      refine ⟨0, by simpa using hL.le, by simp, ?_⟩
      rw [rowFactor_zero]
      simp [Fl.mul, Fl.cast, Fl.exact]
    · refine ⟨a * (L / M), ?_, by field_simp, ?_⟩
      · rw [abs_mul, abs_of_pos (div_pos hL hM), ← mul_div_assoc, div_le_iff₀ hM, mul_comm L]
        exact mul_le_mul_of_nonneg_right haM hL.le
      · rw [rowFactor_pos hM.ne', mul_div_exact hM.ne', cast_exact]
  obtain ⟨x, hx, ha, hc⟩ := key
  rw [hc] at hs
  obtain ⟨s', y', h1, h2, h3⟩ := hA x d hx
  obtain rfl : s' = s := by rw [h1] at hs; simpa using hs
  obtain rfl : .fin y' = lev := by rw [h2] at hd; simpa using hd
  refine ⟨y' * (M / L), ?_, ?_⟩
  · simp [Fl.div, hL.ne', Fl.mul, Fl.cast, Fl.exact]
  · rw [ha, ← sub_mul, abs_mul, abs_of_nonneg (div_nonneg hM0 hL.le)]
    exact mul_le_mul_of_nonneg_right h3 (div_nonneg hM0 hL.le)

/-- **C20**: exact arithmetic; `M r` is the maximum of row `r` alone. Decoding row `r` gives every finite
component of a counted visibility back with an error of at most `δ * (M r / L)`. -/
theorem row_error {e : Encoder} {b l : Nat → ℚ} {L : ℚ} (hT : Table e b l L) (dithered : Bool)
    (dith : Nat → Nat) {δ : ℚ}
    (hA : Accurate (encFn Fl.exact e dithered) e.decode L δ)
    (h : Holds nR (nPol * nCh) A D data)
    (M : Nat → ℚ) (hM : ∀ r, r < nR → IsMax (nPol * nCh) (D r) (M r))
    (metaB : Buf Fl) (hm : nR ≤ metaB.len) (sym : Buf Nat) (hs : nR * (nPol * nCh) * 2 ≤ sym.len) :
    ∃ metaB' sym', encode Fl.exact Fl.exact (encFn Fl.exact e dithered) e.maxQuantity nPol nCh dith
        data metaB sym = some (metaB', sym') ∧
      ∀ (dest : Block Cx) (r a1 a2 : Nat), r < nR → r < dest.len →
        ∃ dest', decode Fl.exact Fl.exact e.decode nPol nCh metaB' dest sym' r a1 a2 = some dest' ∧
          (dest'.get r).antenna1 = a1 ∧ (dest'.get r).antenna2 = a2 ∧
          (∀ j, j ≠ r → dest'.get j = dest.get j) ∧
          ∀ i m, i < nPol * nCh → Counted (D r i) m → ∀ a,
            ((D r i).re = .fin a → ∃ y, ((dest'.get r).vis.get i).re = .fin y ∧
              |y - a| ≤ δ * (M r / L)) ∧
            ((D r i).im = .fin a → ∃ y, ((dest'.get r).vis.get i).im = .fin y ∧
              |y - a| ≤ δ * (M r / L)) := by
  obtain ⟨metaB', sym', e1, l1, l2, hmeta, _, hsq, _, h8⟩ := encode_spec (RF := Fl.exact)
    (RD := Fl.exact) (hT.total Fl.exact dithered) (maxLevel := e.maxQuantity) (dith := dith) h metaB hm
    sym hs
  refine ⟨metaB', sym', e1, ?_⟩
  intro dest r a1 a2 hr hd
  have hrow : (r * (nPol * nCh) + nPol * nCh) * 2 ≤ nR * (nPol * nCh) * 2 := by
    have : (r + 1) * (nPol * nCh) ≤ nR * (nPol * nCh) := Nat.mul_le_mul_right _ hr
    rw [Nat.add_mul, Nat.one_mul] at this
    omega
  obtain ⟨dest', e2, _, d2, d3, d4, _, d6⟩ := decode_spec (RF := Fl.exact) (RD := Fl.exact)
    (nPol := nPol) (nCh := nCh) hT metaB' sym' dest r a1 a2 hd (by omega) (by omega)
    (fun j hj => hsq j (by omega))
  refine ⟨dest', e2, d3, d4, d2, ?_⟩
  intro i m hi hc a
  have hmM := (hM r hr).2.1 i m hi hc
  have hlt := flat_lt hr hi
  rw [d6 i hi, hmeta r hr, maxFold_eq (hM r hr), hT.maxQuantity]
  have h8' := h8 r i hr hi
  rw [maxFold_eq (hM r hr), hT.maxQuantity] at h8'
  constructor
  · intro ha
    rw [ha] at h8'
    exact component_exact hT.pos (le_trans (hc.re_le ha) hmM) hA h8'.1
      (hT.decode_some (hsq _ (by omega)))
  · intro ha
    rw [ha] at h8'
    exact component_exact hT.pos (le_trans (hc.im_le ha) hmM) hA h8'.2
      (hT.decode_some (hsq _ (by omega)))

/-! ## C23 -/

/-- **C23** for row normalisation, any rounding that keeps zero: non-finite components decode to NaN,
components of a row in which all components are zero decode to zero. -/
theorem row_special {RF RD : ℚ → Fl} (hRF : RF 0 = .fin 0) (hRD : RD 0 = .fin 0)
    {e : Encoder} {b l : Nat → ℚ} {L : ℚ} (hT : Table e b l L) (dithered : Bool)
    (dith : Nat → Nat) (h : Holds nR (nPol * nCh) A D data)
    (metaB : Buf Fl) (hm : nR ≤ metaB.len) (sym : Buf Nat) (hs : nR * (nPol * nCh) * 2 ≤ sym.len) :
    ∃ metaB' sym', encode RF RD (encFn RF e dithered) e.maxQuantity nPol nCh dith data metaB sym =
        some (metaB', sym') ∧
      ∀ (dest : Block Cx) (r a1 a2 : Nat), r < nR → r < dest.len →
        ∃ dest', decode RF RD e.decode nPol nCh metaB' dest sym' r a1 a2 = some dest' ∧
          (∀ i, i < nPol * nCh →
            ((D r i).re.isFinite = false → ((dest'.get r).vis.get i).re = .nan) ∧
            ((D r i).im.isFinite = false → ((dest'.get r).vis.get i).im = .nan)) ∧
          ((∀ i, i < nPol * nCh → D r i = ⟨.fin 0, .fin 0⟩) →
            ∀ i, i < nPol * nCh → (dest'.get r).vis.get i = ⟨.fin 0, .fin 0⟩) := by
  obtain ⟨metaB', sym', e1, l1, l2, hmeta, _, hsq, _, h8⟩ := encode_spec (RF := RF)
    (RD := RD) (hT.total RF dithered) (maxLevel := e.maxQuantity) (dith := dith) h metaB hm
    sym hs
  refine ⟨metaB', sym', e1, ?_⟩
  intro dest r a1 a2 hr hd
  have hrow : (r * (nPol * nCh) + nPol * nCh) * 2 ≤ nR * (nPol * nCh) * 2 := by
    have : (r + 1) * (nPol * nCh) ≤ nR * (nPol * nCh) := Nat.mul_le_mul_right _ hr
    rw [Nat.add_mul, Nat.one_mul] at this
    omega
  obtain ⟨dest', e2, _, d2, d3, d4, _, d6⟩ := decode_spec (RF := RF) (RD := RD)
    (nPol := nPol) (nCh := nCh) hT metaB' sym' dest r a1 a2 hd (by omega) (by omega)
    (fun j hj => hsq j (by omega))
  refine ⟨dest', e2, ?_, ?_⟩
  · intro i hi
    rw [d6 i hi]
    have hnan : ∀ f, Fl.cast RF (Fl.mul RD .nan f) = .nan := by intro f; cases f <;> rfl
    constructor
    · intro hn
      simp only
      rw [hT.nonfinite RF dithered (cast_nonfinite (mul_nonfinite hn)) _ (h8 r i hr hi).1, hnan]
    · intro hn
      simp only
      rw [hT.nonfinite RF dithered (cast_nonfinite (mul_nonfinite hn)) _ (h8 r i hr hi).2, hnan]
  · intro hz i hi
    have hmax : IsMax (nPol * nCh) (D r) 0 := by
      refine ⟨le_refl _, ?_, Or.inl rfl⟩
      intro j m hj hc
      obtain ⟨a, h1, h2⟩ := hc.attained
      rw [hz j hj] at h1
      have : a = 0 := by rcases h1 with h1 | h1 <;> simpa using h1.symm
      rw [← h2, this, abs_zero]
    have h8' := h8 r i hr hi
    rw [maxFold_eq hmax, hT.maxQuantity, rowFactor_zero, hz i hi] at h8'
    simp only [Fl.mul, zero_mul, hRD, Fl.cast, hRF] at h8'
    have hle : (0 : ℚ) ≤ fltMax := le_trans hT.pos.le hT.le
    obtain ⟨y1, f1⟩ := hT.finite RF dithered hle _ h8'.1
    obtain ⟨y2, f2⟩ := hT.finite RF dithered hle _ h8'.2
    rw [d6 i hi, hmeta r hr, maxFold_eq hmax, hT.maxQuantity, f1, f2]
    simp only [Fl.div, hT.pos.ne', if_false, zero_div, hRD, Fl.cast, hRF, Fl.mul, mul_zero]

/-- **C23**, last part (exact arithmetic): a visibility of which both components are finite decodes to
finite components. -/
theorem row_finite {e : Encoder} {b l : Nat → ℚ} {L : ℚ} (hT : Table e b l L) (dithered : Bool)
    (dith : Nat → Nat) (h : Holds nR (nPol * nCh) A D data)
    (metaB : Buf Fl) (hm : nR ≤ metaB.len) (sym : Buf Nat) (hs : nR * (nPol * nCh) * 2 ≤ sym.len) :
    ∃ metaB' sym', encode Fl.exact Fl.exact (encFn Fl.exact e dithered) e.maxQuantity nPol nCh dith
        data metaB sym = some (metaB', sym') ∧
      ∀ (dest : Block Cx) (r a1 a2 : Nat), r < nR → r < dest.len →
        ∃ dest', decode Fl.exact Fl.exact e.decode nPol nCh metaB' dest sym' r a1 a2 = some dest' ∧
          ∀ i x y, i < nPol * nCh → D r i = ⟨.fin x, .fin y⟩ →
            ∃ x' y', (dest'.get r).vis.get i = ⟨.fin x', .fin y'⟩ := by
  obtain ⟨metaB', sym', e1, l1, l2, hmeta, _, hsq, _, h8⟩ := encode_spec (RF := Fl.exact)
    (RD := Fl.exact) (hT.total Fl.exact dithered) (maxLevel := e.maxQuantity) (dith := dith) h metaB hm
    sym hs
  refine ⟨metaB', sym', e1, ?_⟩
  intro dest r a1 a2 hr hd
  have hrow : (r * (nPol * nCh) + nPol * nCh) * 2 ≤ nR * (nPol * nCh) * 2 := by
    have : (r + 1) * (nPol * nCh) ≤ nR * (nPol * nCh) := Nat.mul_le_mul_right _ hr
    rw [Nat.add_mul, Nat.one_mul] at this
    omega
  obtain ⟨dest', e2, _, d2, d3, d4, _, d6⟩ := decode_spec (RF := Fl.exact) (RD := Fl.exact)
    (nPol := nPol) (nCh := nCh) hT metaB' sym' dest r a1 a2 hd (by omega) (by omega)
    (fun j hj => hsq j (by omega))
  refine ⟨dest', e2, ?_⟩
  intro i x y hi hxy
  obtain ⟨M, eM, hM⟩ := maxFold_spec (D r) (nPol * nCh)
  have hc : Counted (D r i) (max |x| |y|) := ⟨x, by rw [hxy], Or.inl ⟨y, by rw [hxy], rfl⟩⟩
  have hmM := hM.2.1 i _ hi hc
  have h8' := h8 r i hr hi
  rw [eM, hT.maxQuantity, hxy] at h8'
  have key : ∀ a, |a| ≤ M → ∃ v, v ≤ fltMax ∧
      Fl.cast Fl.exact (Fl.mul Fl.exact (.fin a) (rowFactor Fl.exact (.fin L) (.fin M))) = .fin v := by
    intro a ha
    rcases hM.1.eq_or_lt with h0 | hp
    · rw [← h0] at ha ⊢
      have ha0 : a = 0 := abs_eq_zero.mp (le_antisymm ha (abs_nonneg a))
      subst ha0
      refine ⟨0, le_trans hT.pos.le hT.le, ?_⟩
      rw [rowFactor_zero]
      simp [Fl.mul, Fl.cast, Fl.exact]
    · refine ⟨a * (L / M), ?_, by rw [rowFactor_pos hp.ne', mul_div_exact hp.ne', cast_exact]⟩
      refine le_trans ?_ hT.le
      rw [← mul_div_assoc, div_le_iff₀ hp, mul_comm L]
      exact mul_le_mul_of_nonneg_right (le_trans (le_abs_self a) ha) hT.pos.le
  obtain ⟨v1, q1, c1⟩ := key x (le_trans (le_max_left _ _) hmM)
  obtain ⟨v2, q2, c2⟩ := key y (le_trans (le_max_right _ _) hmM)
  simp only at h8'
  rw [c1, c2] at h8'
  obtain ⟨y1, f1⟩ := hT.finite Fl.exact dithered q1 _ h8'.1
  obtain ⟨y2, f2⟩ := hT.finite Fl.exact dithered q2 _ h8'.2
  rw [d6 i hi, hmeta r hr, eM, hT.maxQuantity, f1, f2]
  exact ⟨y1 * (M / L), y2 * (M / L), by simp [Fl.div, hT.pos.ne', Fl.mul, Fl.cast, Fl.exact]⟩

/-! ## C24 -/

/-- **C24**: the real part is NaN and the imaginary part `x` exceeds the maximum `M` of the other
visibilities of the row: with dithering it decodes to exactly `M` — the error `x - M` is arbitrarily
large (exact arithmetic). By `row_error` this cannot happen with the parts exchanged: then the visibility
is counted. -/
theorem half_flagged_clipped {e : Encoder} {b l : Nat → ℚ} {L : ℚ} (hT : Table e b l L)
    (dith : Nat → Nat) (h : Holds nR (nPol * nCh) A D data)
    (M : Nat → ℚ) (hM : ∀ r, r < nR → IsMax (nPol * nCh) (D r) (M r))
    (metaB : Buf Fl) (hm : nR ≤ metaB.len) (sym : Buf Nat) (hs : nR * (nPol * nCh) * 2 ≤ sym.len) :
    ∃ metaB' sym', encode Fl.exact Fl.exact (encFn Fl.exact e true) e.maxQuantity nPol nCh dith
        data metaB sym = some (metaB', sym') ∧
      ∀ (dest : Block Cx) (r a1 a2 : Nat), r < nR → r < dest.len →
        ∃ dest', decode Fl.exact Fl.exact e.decode nPol nCh metaB' dest sym' r a1 a2 = some dest' ∧
          ∀ i x, i < nPol * nCh → D r i = ⟨.nan, .fin x⟩ → 0 < M r → M r < x →
            (dest'.get r).vis.get i = ⟨.nan, .fin (M r)⟩ := by
  obtain ⟨metaB', sym', e1, l1, l2, hmeta, _, hsq, _, h8⟩ := encode_spec (RF := Fl.exact)
    (RD := Fl.exact) (hT.total Fl.exact true) (maxLevel := e.maxQuantity) (dith := dith) h metaB hm
    sym hs
  refine ⟨metaB', sym', e1, ?_⟩
  intro dest r a1 a2 hr hd
  have hrow : (r * (nPol * nCh) + nPol * nCh) * 2 ≤ nR * (nPol * nCh) * 2 := by
    have : (r + 1) * (nPol * nCh) ≤ nR * (nPol * nCh) := Nat.mul_le_mul_right _ hr
    rw [Nat.add_mul, Nat.one_mul] at this
    omega
  obtain ⟨dest', e2, _, d2, d3, d4, _, d6⟩ := decode_spec (RF := Fl.exact) (RD := Fl.exact)
    (nPol := nPol) (nCh := nCh) hT metaB' sym' dest r a1 a2 hd (by omega) (by omega)
    (fun j hj => hsq j (by omega))
  refine ⟨dest', e2, ?_⟩
  intro i x hi hx hM0 hMx
  have h8' := h8 r i hr hi
  rw [maxFold_eq (hM r hr), hT.maxQuantity, hx] at h8'
  have hn := hT.nonfinite Fl.exact true (cast_nonfinite (mul_nonfinite (R := Fl.exact)
    (v := .nan) (f := rowFactor Fl.exact (.fin L) (.fin (M r))) rfl)) _ h8'.1
  have hbig : L < x * (L / M r) := by
    rw [← mul_div_assoc, lt_div_iff₀ hM0, mul_comm L]
    exact mul_lt_mul_of_pos_right hMx hT.pos
  have h9 := h8'.2
  rw [rowFactor_pos hM0.ne', mul_div_exact hM0.ne', cast_exact] at h9
  have hn2 := hT.levels.two
  have hsym : sym'.get ((r * (nPol * nCh) + i) * 2 + 1) = e.n - 1 := by
    obtain ⟨s, g1, g2, g3⟩ := dither_neighbour hT.levels Fl.exact (x * (L / M r))
      (dith ((r * (nPol * nCh) + i) * 2 + 1))
    have hs' : s = sym'.get ((r * (nPol * nCh) + i) * 2 + 1) := by
      simp only [encFn, if_true] at h9
      rw [g1] at h9
      simpa using h9
    rw [← hs']
    rcases g3 with ⟨a, _⟩ | ⟨_, a⟩ | ⟨k, hk, _, hk2, _⟩
    · have := hT.levels.asc 0 (e.n - 1) (by omega) (by omega)
      rw [hT.top] at this
      linarith
    · exact a
    · have := StrictlyAscending.asc hT.levels.asc (k + 1) (e.n - 1) (by omega) (by omega)
      rw [hT.top] at this
      linarith
  rw [d6 i hi, hmeta r hr, maxFold_eq (hM r hr), hT.maxQuantity, hn, hsym,
    hT.levels.eq _ (by omega), hT.top]
  have hLne := hT.pos.ne'
  simp only [Fl.div, hLne, if_false, Fl.cast, Fl.exact, Fl.mul, Cx.mk.injEq, true_and, Fl.fin.injEq]
  field_simp

/-! ## Non-vacuity -/

/-- Levels -1, 0, 1 with boundaries -1/2, 1/2, FLT_MAX. -/
def smallTable : Encoder :=
  ⟨3, fun i => if i = 0 then .fin (-1 / 2) else if i = 1 then .fin (1 / 2) else .fin fltMax,
    fun i => if i = 3 then .nan else .fin ((i : ℚ) - 1), 4⟩

theorem smallTable_ok : Table smallTable
    (fun i => if i = 0 then -1 / 2 else if i = 1 then 1 / 2 else fltMax) (fun i => (i : ℚ) - 1) 1 where
  bounds := by
    have hf : (1 / 2 : ℚ) ≤ fltMax := by norm_num [fltMax]
    refine ⟨by decide, ?_, ?_, rfl⟩
    · intro i _
      simp only [smallTable]
      split
      · rfl
      · split <;> rfl
    · intro i j hij hj
      have hj' : j < 3 := hj
      have : j = 0 ∨ j = 1 ∨ j = 2 := by omega
      have : i = 0 ∨ i = 1 ∨ i = 2 := by omega
      rcases this with rfl | rfl | rfl <;> rcases ‹j = 0 ∨ j = 1 ∨ j = 2› with rfl | rfl | rfl <;>
        first
        | omega
        | (simp; try linarith)
  levels := by
    refine ⟨by decide, ?_, ?_, rfl, rfl⟩
    · intro i hi
      have : i ≠ 3 := by
        have : i < 3 := hi
        omega
      simp [smallTable, this]
    · intro i j hij _
      have : (i : ℚ) < j := by exact_mod_cast hij
      simp only
      linarith
  top := by norm_num [smallTable]
  pos := by norm_num
  le := by norm_num [fltMax]

/-- The table is accurate to one step, so C20 applies to it. -/
example : Accurate (encFn Fl.exact smallTable true) smallTable.decode 1 1 :=
  dither_accurate smallTable_ok Fl.exact 1 (by norm_num) (by norm_num)
    (fun k _ => by push_cast; linarith)

/-- A row with a normal, a half-flagged and a flagged visibility. -/
def sampleVis : Nat → Cx := fun i => if i = 0 then ⟨.fin 3, .fin (-4)⟩ else
  if i = 1 then ⟨.nan, .fin 7⟩ else ⟨.nan, .nan⟩

example : IsMax 3 sampleVis 4 ∧ Counted (sampleVis 0) 4 ∧ (∀ m, ¬ Counted (sampleVis 1) m) := by
  have h0 : Counted (sampleVis 0) 4 := ⟨3, rfl, Or.inl ⟨-4, rfl, by norm_num⟩⟩
  have h1 : ∀ i, 1 ≤ i → ∀ m, ¬ Counted (sampleVis i) m := by
    rintro i hi m ⟨a, h, _⟩
    have hi0 : i ≠ 0 := by omega
    simp only [sampleVis, hi0, if_false] at h
    split at h <;> simp at h
  refine ⟨⟨by norm_num, ?_, Or.inr ⟨0, by norm_num, h0⟩⟩, h0, h1 1 (le_refl _)⟩
  intro i m _ hc
  rcases Nat.eq_zero_or_pos i with h | h
  · rw [h] at hc; exact le_of_eq (hc.unique h0)
  · exact absurd hc (h1 i h m)

/-- A block that holds two such rows. -/
example : Holds 2 3 (fun r => (r, r + 1)) (fun _ => sampleVis)
    ⟨2, fun r => ⟨r, r + 1, ⟨3, sampleVis⟩⟩⟩ :=
  ⟨rfl, fun _ _ => rfl, fun _ _ => rfl, fun _ _ _ _ => rfl⟩

end Dysco.Row
