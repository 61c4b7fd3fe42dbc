import Verif.Power

/-!
# C136: compression keeps the order and the sign of values

Encoding with dithering is monotone: with the same dither value, a larger value never gets a smaller symbol, although the
place where the choice between two levels changes is computed in float arithmetic. So the components of a row come back in
the same order, and weights do too. A positive component is not read back as a negative one, unless it is so small that it
underflows when it is scaled.
-/

namespace Dysco.Fl

theorem le_round {f : Fmt} (hp : 1 ≤ f.p) {x y : ℚ} (h : x ≤ y) : Fl.le (round f x) (round f y) = true := by
  have hr := rnd_mono hp h
  unfold round
  have neg_of : ∀ {z : ℚ}, rnd f z < 0 → z < 0 := by
    intro z hz
    by_contra hc
    exact absurd (rnd_nonneg f (not_lt.1 hc)) (not_le.2 hz)
  have pos_of : ∀ {z : ℚ}, 0 < rnd f z → ¬ z < 0 := by
    intro z hz hc
    have := rnd_nonneg f (x := -z) (by linarith)
    rw [rnd_neg] at this
    linarith
  split <;> split
  · simpa [Fl.le] using hr
  · rename_i h1 h2
    have : ¬ y < 0 := by
      refine pos_of ?_
      have h3 := (abs_lt.1 h1).1
      by_contra hc
      exact h2 (abs_lt.2 ⟨by linarith, lt_of_le_of_lt (not_lt.1 hc) (zp_pos _)⟩)
    simp [Fl.le, this]
  · rename_i h1 h2
    have : x < 0 := by
      refine neg_of ?_
      have h3 := (abs_lt.1 h2).2
      by_contra hc
      exact h1 (abs_lt.2 ⟨lt_of_lt_of_le (neg_neg_of_pos (zp_pos _)) (not_lt.1 hc), by linarith⟩)
    simp [Fl.le, this]
  · rename_i h1 h2
    by_cases hy : y < 0
    · have hx : x < 0 := lt_of_le_of_lt h hy
      simp [Fl.le, hx, hy]
    · by_cases hx : x < 0 <;> simp [Fl.le, hx, hy]

theorem round_le_inf (f : Fmt) (x : ℚ) : Fl.le (round f x) (.inf false) = true := by
  unfold round
  split <;> simp [Fl.le]

theorem inf_le_round (f : Fmt) (x : ℚ) : Fl.le (.inf true) (round f x) = true := by
  unfold round
  split <;> simp [Fl.le]

theorem le_cast {f : Fmt} (hp : 1 ≤ f.p) {a b : Fl} (h : Fl.le a b = true) :
    Fl.le (cast (round f) a) (cast (round f) b) = true := by
  cases a with
  | fin x =>
    cases b with
    | fin y => exact le_round hp (by simpa [Fl.le] using h)
    | inf m =>
      cases m with
      | true => simp [Fl.le] at h
      | false => exact round_le_inf f x
    | nan => simp [Fl.le] at h
  | inf n =>
    cases b with
    | fin y =>
      cases n with
      | false => simp [Fl.le] at h
      | true => exact inf_le_round f y
    | inf m => exact h
    | nan => simp [Fl.le] at h
  | nan => simp [Fl.le] at h

theorem le_mul_pos {f : Fmt} (hp : 1 ≤ f.p) {a b : Fl} (h : Fl.le a b = true) {c : ℚ} (hc : 0 < c) :
    Fl.le (mul (round f) a (.fin c)) (mul (round f) b (.fin c)) = true := by
  have hc' : decide (c < 0) = false := decide_eq_false (not_lt.2 hc.le)
  cases a with
  | fin x =>
    cases b with
    | fin y => exact le_round hp (mul_le_mul_of_nonneg_right (by simpa [Fl.le] using h) hc.le)
    | inf m =>
      cases m with
      | true => simp [Fl.le] at h
      | false => simpa [mul, hc.ne', hc'] using round_le_inf f (x * c)
    | nan => simp [Fl.le] at h
  | inf n =>
    cases b with
    | fin y =>
      cases n with
      | false => simp [Fl.le] at h
      | true => simpa [mul, hc.ne', hc'] using inf_le_round f (y * c)
    | inf m => simpa [mul, hc.ne', hc'] using h
    | nan => simp [Fl.le] at h
  | nan => simp [Fl.le] at h

theorem mul_comm_fin (R : ℚ → Fl) (c : ℚ) (a : Fl) : mul R (.fin c) a = mul R a (.fin c) := by
  cases a with
  | fin x => simp only [mul, _root_.mul_comm]
  | inf n => rfl
  | nan => rfl

theorem le_div_pos {f : Fmt} (hp : 1 ≤ f.p) {a b : Fl} (h : Fl.le a b = true) {c : ℚ} (hc : 0 < c) :
    Fl.le (div (round f) a (.fin c)) (div (round f) b (.fin c)) = true := by
  have hc' : decide (c < 0) = false := decide_eq_false (not_lt.2 hc.le)
  cases a with
  | fin x =>
    cases b with
    | fin y =>
      simp only [div, if_neg hc.ne']
      exact le_round hp (div_le_div_of_nonneg_right (by simpa [Fl.le] using h) hc.le)
    | inf m =>
      cases m with
      | true => simp [Fl.le] at h
      | false => simpa [div, hc.ne', hc'] using round_le_inf f (x / c)
    | nan => simp [Fl.le] at h
  | inf n =>
    cases b with
    | fin y =>
      cases n with
      | false => simp [Fl.le] at h
      | true => simpa [div, hc.ne', hc'] using inf_le_round f (y / c)
    | inf m => simpa [div, hc'] using h
    | nan => simp [Fl.le] at h
  | nan => simp [Fl.le] at h

theorem lt_of_lt_of_le {a b c : Fl} (h : Fl.lt a b = true) (h' : Fl.le b c = true) : Fl.lt a c = true := by
  cases a <;> cases b <;> cases c <;> simp_all [Fl.lt, Fl.le]
  all_goals linarith

theorem lt_of_le_of_lt {a b c : Fl} (h : Fl.le a b = true) (h' : Fl.lt b c = true) : Fl.lt a c = true := by
  cases a <;> cases b <;> cases c <;> simp_all [Fl.lt, Fl.le]
  all_goals linarith

/-- The difference of two floats is not rounded to zero. -/
theorem round_sub_pos {a b : ℚ} (ha : Repr binary32 a) (hb : Repr binary32 b) (h : a < b) :
    r32 (b + -a) = .inf false ∨ ∃ c, 0 < c ∧ r32 (b + -a) = .fin c := by
  have hd : (2 : ℚ) ^ (-149 : ℤ) ≤ b + -a := by
    obtain ⟨m, k, hk, -, rfl⟩ := ha
    obtain ⟨m', k', hk', -, rfl⟩ := hb
    have hk : (-149 : ℤ) ≤ k := hk
    have hk' : (-149 : ℤ) ≤ k' := hk'
    obtain ⟨u, hu⟩ : ∃ u : ℕ, k = -149 + u := ⟨(k + 149).toNat, by omega⟩
    obtain ⟨u', hu'⟩ : ∃ u : ℕ, k' = -149 + u := ⟨(k' + 149).toNat, by omega⟩
    have e : (m' : ℚ) * 2 ^ k' + -((m : ℚ) * 2 ^ k) = ((m' * 2 ^ u' - m * 2 ^ u : ℤ) : ℚ) * 2 ^ (-149 : ℤ) := by
      rw [hu, hu', zpow_add₀ (by norm_num), zpow_add₀ (by norm_num)]
      push_cast
      rw [zpow_natCast, zpow_natCast]
      ring
    have hpos : 0 < (m' : ℚ) * 2 ^ k' + -((m : ℚ) * 2 ^ k) := by linarith
    rw [e] at hpos ⊢
    have h1 := pos_of_mul_pos_left hpos (zp_pos (-149)).le
    have h2 : 0 < m' * 2 ^ u' - m * 2 ^ u := by exact_mod_cast h1
    have h3 : (1 : ℚ) ≤ ((m' * 2 ^ u' - m * 2 ^ u : ℤ) : ℚ) := by exact_mod_cast h2
    exact le_mul_of_one_le_left (zp_pos _).le h3
  have hr : Repr binary32 ((2 : ℚ) ^ (-149 : ℤ)) := by
    have := repr_int_mul (f := binary32) 1 (-149) (by decide) (by norm_num [binary32])
    simpa using this
  have h1 := rnd_mono (f := binary32) (by decide) hd
  rw [rnd_of_repr (by decide) hr] at h1
  unfold r32 round
  split
  · exact Or.inr ⟨_, _root_.lt_of_lt_of_le (zp_pos _) h1, rfl⟩
  · left
    have : ¬ b + -a < 0 := by linarith
    simp [this]

end Dysco.Fl

namespace Dysco.Stochastic

/-- **C136** With the same dither value, a larger value never gets a smaller symbol. -/
theorem dither_monotone {e : Encoder} {l : Nat → ℚ} (h : Levels e l) (hl : ∀ i, i < e.n → Fl.Repr Fl.binary32 (l i))
    {x y : ℚ} (hxy : x ≤ y) (d : Nat) {s t : Nat} (hs : e.encodeDither Fl.r32 (.fin x) d = some s)
    (ht : e.encodeDither Fl.r32 (.fin y) d = some t) : s ≤ t := by
  have hn := h.two
  have hasc := StrictlyAscending.asc h.asc
  rcases dither_search h Fl.r32 x d with ⟨h1, h2⟩ | ⟨h1, h2⟩ | ⟨k, h0, h1, h1', h2⟩
  · rw [h2] at hs
    obtain rfl : 0 = s := by simpa using hs
    exact Nat.zero_le _
  · rw [h2] at hs
    obtain rfl : e.n - 1 = s := by simpa using hs
    rcases dither_search h Fl.r32 y d with ⟨g1, -⟩ | ⟨g1, g2⟩ | ⟨k', g0, g1, g1', g2⟩
    · have := hasc 0 (e.n - 1) (by omega) (by omega)
      linarith
    · rw [g2] at ht
      exact Nat.le_of_eq (by simpa using ht)
    · have := hasc (k' + 1) (e.n - 1) (by omega) (by omega)
      linarith
  · rw [h2] at hs
    have hs' : s ≤ k + 1 := by
      split at hs <;> · have := Option.some.inj hs; omega
    rcases dither_search h Fl.r32 y d with ⟨g1, -⟩ | ⟨g1, g2⟩ | ⟨k', g0, g1, g1', g2⟩
    · have := hasc 0 k (by omega) (by omega)
      linarith
    · rw [g2] at ht
      have := Option.some.inj ht
      omega
    · rw [g2] at ht
      have ht' : k' ≤ t := by
        split at ht <;> · have := Option.some.inj ht; omega
      rcases Nat.lt_trichotomy k k' with hk | rfl | hk
      · omega
      · split at hs
        · rename_i hm
          rw [if_pos] at ht
          · have := Option.some.inj hs
            have := Option.some.inj ht
            omega
          · rcases Fl.round_sub_pos (hl k (by omega)) (hl (k + 1) g0) (h.asc k (k + 1) (by omega) g0) with hi | ⟨c, hc, hi⟩
            · rw [hi] at hm
              exfalso
              generalize Fl.mul Fl.r32 (.fin (2 ^ 31)) (Fl.r32 (x + -l k)) = v at hm
              cases v with
              | fin v =>
                have h3 : Fl.le (Fl.r32 0) (Fl.r32 d) = true := Fl.le_round (by decide) (by positivity)
                rw [Fl.r32_zero] at h3
                have := Fl.lt_of_le_of_lt h3 hm
                simp [Fl.div, Fl.lt] at this
              | inf n => simp [Fl.div, Fl.lt] at hm
              | nan => simp [Fl.div, Fl.lt] at hm
            · rw [hi] at hm ⊢
              refine Fl.lt_of_lt_of_le hm (Fl.le_div_pos (by decide) ?_ hc)
              rw [Fl.mul_comm_fin, Fl.mul_comm_fin]
              exact Fl.le_mul_pos (by decide) (Fl.le_round (by decide) (by linarith)) (by norm_num)
        · have := Option.some.inj hs
          omega
      · have := hasc (k' + 1) k (by omega) (by omega)
        linarith

/-- **C136** A larger dither value never gives a larger symbol. -/
theorem dither_antitone {e : Encoder} {l : Nat → ℚ} (h : Levels e l) (x : ℚ) {d d' : Nat} (hd : d ≤ d') {s t : Nat}
    (hs : e.encodeDither Fl.r32 (.fin x) d = some s) (ht : e.encodeDither Fl.r32 (.fin x) d' = some t) : t ≤ s := by
  have hasc := StrictlyAscending.asc h.asc
  have hn := h.two
  have hr : Fl.le (Fl.r32 d) (Fl.r32 d') = true := Fl.le_round (by decide) (by exact_mod_cast hd)
  rcases dither_search h Fl.r32 x d with ⟨h1, h2⟩ | ⟨h1, h2⟩ | ⟨k, h0, h1, h1', h2⟩
  · rcases dither_search h Fl.r32 x d' with ⟨g1, g2⟩ | ⟨g1, g2⟩ | ⟨k', g0, g1, g1', g2⟩
    · rw [g2] at ht
      have := Option.some.inj ht
      omega
    · have := hasc 0 (e.n - 1) (by omega) (by omega)
      linarith
    · have := hasc 0 k' (by omega) (by omega)
      linarith
  · rw [h2] at hs
    have := Option.some.inj hs
    rcases dither_search h Fl.r32 x d' with ⟨g1, g2⟩ | ⟨g1, g2⟩ | ⟨k', g0, g1, g1', g2⟩
    · rw [g2] at ht
      have := Option.some.inj ht
      omega
    · rw [g2] at ht
      have := Option.some.inj ht
      omega
    · rw [g2] at ht
      split at ht <;> · have := Option.some.inj ht; omega
  · rcases dither_search h Fl.r32 x d' with ⟨g1, g2⟩ | ⟨g1, g2⟩ | ⟨k', g0, g1, g1', g2⟩
    · rw [g2] at ht
      have := Option.some.inj ht
      omega
    · have := hasc (k + 1) (e.n - 1) (by omega) (by omega)
      linarith
    · obtain rfl : k = k' := by
        rcases Nat.lt_trichotomy k k' with hk | rfl | hk
        · have := hasc (k + 1) k' (by omega) (by omega)
          linarith
        · rfl
        · have := hasc (k' + 1) k (by omega) (by omega)
          linarith
      rw [h2] at hs
      rw [g2] at ht
      split at ht
      · rename_i hm
        rw [if_pos (Fl.lt_of_le_of_lt hr hm)] at hs
        rw [← Option.some.inj hs, ← Option.some.inj ht]
      · have := Option.some.inj ht
        split at hs <;> · have := Option.some.inj hs; omega

/-- **C136** If zero is a level, a positive value is not given a negative level, nor a negative value a positive one. -/
theorem dither_sign {e : Encoder} {l : Nat → ℚ} (h : Levels e l) {m : Nat} (hm : m < e.n) (hz : l m = 0) (R : ℚ → Fl)
    {x : ℚ} (d : Nat) {s : Nat} (hs : e.encodeDither R (.fin x) d = some s) :
    (0 < x → 0 ≤ l s) ∧ (x < 0 → l s ≤ 0) ∧ s < e.n := by
  have hasc := StrictlyAscending.asc h.asc
  have hn := h.two
  have lt_of : ∀ {i j : Nat}, i < e.n → j < e.n → l i < l j → i < j := by
    intro i j hi hj hij
    by_contra hc
    exact absurd (hasc j i (by omega) hi) (not_le.2 hij)
  rcases dither_search h R x d with ⟨h1, h2⟩ | ⟨h1, h2⟩ | ⟨k, h0, h1, h1', h2⟩
  · rw [h2] at hs
    obtain rfl : 0 = s := by simpa using hs
    have := hasc 0 m (by omega) hm
    exact ⟨fun hx => by linarith, fun _ => by linarith, by omega⟩
  · rw [h2] at hs
    obtain rfl : e.n - 1 = s := by simpa using hs
    have := hasc m (e.n - 1) (by omega) (by omega)
    exact ⟨fun _ => by linarith, fun hx => by linarith, by omega⟩
  · rw [h2] at hs
    have hcase : s = k ∨ s = k + 1 := by
      split at hs
      · exact Or.inr (Option.some.inj hs).symm
      · exact Or.inl (Option.some.inj hs).symm
    have a1 := hasc k (k + 1) (by omega) h0
    refine ⟨fun hx => ?_, fun hx => ?_, by omega⟩
    · have := lt_of hm h0 (by rw [hz]; linarith)
      have := hasc m k (by omega) (by omega)
      rcases hcase with rfl | rfl <;> linarith
    · have := lt_of (i := k) (by omega) hm (by rw [hz]; linarith)
      have := hasc (k + 1) m (by omega) (by omega)
      rcases hcase with rfl | rfl <;> linarith

end Dysco.Stochastic

namespace Dysco

/-- Real part for 0, imaginary part for 1. Not in the code. -/
def Cx.part (v : Cx) (k : Nat) : Fl := if k = 0 then v.re else v.im

end Dysco

namespace Dysco.Layout
open BytePacker TimeBlock Stochastic

variable {nR nPol nCh nAnt bits : Nat} {A : Nat → Nat × Nat} {D : Nat → Nat → Cx} {data : Block Cx}

theorem fin_le_of_cast {u v : Fl} (h : Fl.le u v = true) {y y' : ℚ} (hy : Fl.cast Fl.r32 u = .fin y)
    (hy' : Fl.cast Fl.r32 v = .fin y') : y ≤ y' := by
  have := Fl.le_cast (f := Fl.binary32) (by decide) h
  rw [show Fl.round Fl.binary32 = Fl.r32 from rfl, hy, hy'] at this
  simpa [Fl.le] using this

/-- One component of a row that is written with row normalisation and read back. -/
theorem row_part (sq : Fl → Fl) {e : Encoder} {b l : Nat → ℚ} {L : ℚ} (hT : Table e b l L)
    (hl : ∀ i, i < e.n → Fl.Repr Fl.binary32 (l i) ∧ |l i| < 2 ^ (128 : ℤ))
    (hb : Supported bits) (hq : e.quantCount = 2 ^ bits) (hR : 0 < nR)
    (h : Holds nR (nPol * nCh) A D data) (hF : ∀ r i, r < nR → i < nPol * nCh → FloatVis (D r i))
    (dith : Nat → Nat) (fuel : Nat) {packed : Mem 8} {unpacked out : Buf Nat}
    (hp : packed.len = blockSize nR (symbolCount nR nPol nCh) bits)
    (hu : unpacked.len = symbolCount nR nPol nCh) (ho : out.len = symbolCount nR nPol nCh)
    (dflt : DataRow Cx) (rows : Block Cx) :
    ∃ d x, writeBlock (encData .row sq e nPol nCh nAnt dith fuel data) bits nR (symbolCount nR nPol nCh)
        packed unpacked = .ok d ∧
      readBlock (decData .row e nPol nCh nAnt A) bits nR (symbolCount nR nPol nCh) nR dflt d out rows = .ok x ∧
      ∀ r, r < nR → ∃ F f, 0 < F ∧ 0 ≤ f ∧
        (∀ M, IsMax (nPol * nCh) (D r) M → 0 < M → |F - L / M| ≤ L / M * 2 ^ (-53 : ℤ)) ∧
        ∀ i k, i < nPol * nCh → k < 2 → ∀ y, ((x.get r).vis.get i).part k = .fin y →
          ∃ v s, Fl.cast Fl.r32 (Fl.mul Fl.r64 ((D r i).part k) (.fin F)) = .fin v ∧
            e.encodeDither Fl.r32 (.fin v) (dith ((r * (nPol * nCh) + i) * 2 + k)) = some s ∧ s < e.n ∧
            Fl.cast Fl.r32 (Fl.mul Fl.r64 (.fin (l s)) (.fin f)) = .fin y := by
  have hn : e.n - 1 < e.n := by have := hT.levels.two; omega
  have hLr : Fl.Repr Fl.binary32 L := by rw [← hT.top]; exact (hl _ hn).1
  have hL2 : L < 2 ^ (128 : ℤ) := by rw [← hT.top]; exact lt_of_le_of_lt (le_abs_self _) (hl _ hn).2
  obtain ⟨d, x, s, e1, e2, e3, e4, e5, e6⟩ := row_block (nAnt := nAnt) sq hT hb hq hR h dith fuel hp hu ho dflt rows
  refine ⟨d, x, e1, e2, fun r hr => ?_⟩
  obtain ⟨M, f1, hM⟩ := maxFold_spec (D r) (nPol * nCh)
  obtain ⟨F, hF0, hFe, hFb⟩ : ∃ F, 0 < F ∧ Row.rowFactor Fl.r64 (.fin L) (.fin M) = .fin F ∧
      (0 < M → |F - L / M| ≤ L / M * 2 ^ (-53 : ℤ)) := by
    rcases hM.1.eq_or_lt with h0 | h0
    · exact ⟨1, by norm_num, by simp [Row.rowFactor, Fl.eq, ← h0], fun h1 => absurd h1 (by rw [← h0]; exact lt_irrefl _)⟩
    · obtain ⟨hMr, hM2⟩ := Row.max_float hM (fun i hi => hF r i hr hi)
      obtain ⟨⟨P, P0, p1, -, p3⟩, -⟩ := r64_ratio (j := 0) hLr hT.pos hL2 (by simpa using hLr) (by simpa using hL2) hMr h0 hM2
      exact ⟨P, P0, by rw [rowFactor_pos h0.ne', p1], fun _ => p3⟩
  obtain ⟨f, hf0, hfe⟩ : ∃ f, 0 ≤ f ∧ ((metaView nR d).get r = .fin f ∨ (metaView nR d).get r = .inf false) := by
    have hx : 0 ≤ M / L := div_nonneg hM.1 hT.pos.le
    rw [e4 r hr, f1]
    simp only [Fl.div, if_neg hT.pos.ne']
    have a1 : Fl.le (.fin 0) (Fl.cast Fl.r32 (Fl.r64 (M / L))) = true := by
      have := Fl.le_cast (f := Fl.binary32) (by decide) (Fl.le_round (f := Fl.binary64) (by decide) hx)
      rw [show Fl.round Fl.binary32 = Fl.r32 from rfl, show Fl.round Fl.binary64 = Fl.r64 from rfl, Fl.r64_zero] at this
      simpa [Fl.cast, Fl.r32_zero] using this
    cases hc : Fl.cast Fl.r32 (Fl.r64 (M / L)) with
    | fin g => exact ⟨g, by simpa [hc, Fl.le] using a1, Or.inl rfl⟩
    | inf n =>
      rw [hc] at a1
      refine ⟨0, le_rfl, Or.inr ?_⟩
      simpa [Fl.le] using a1
    | nan => simp [hc, Fl.le] at a1
  refine ⟨F, f, hF0, hf0, fun M' hM' h0 => ?_, fun i k hi hk y hy => ?_⟩
  · obtain rfl := hM.unique hM'
    exact hFb h0
  have hlt : (r * (nPol * nCh) + i) * 2 + 1 < symbolCount nR nPol nCh := by
    rw [symbolCount_eq]
    have := flat_lt hr hi
    omega
  obtain ⟨c5, c6⟩ : encFn Fl.r32 e true (Fl.cast Fl.r32 (Fl.mul Fl.r64 ((D r i).part k) (.fin F)))
        (dith ((r * (nPol * nCh) + i) * 2 + k)) = some (s ((r * (nPol * nCh) + i) * 2 + k)) ∧
      Fl.cast Fl.r32 (Fl.mul Fl.r64 (e.level (s ((r * (nPol * nCh) + i) * 2 + k))) ((metaView nR d).get r)) = .fin y := by
    have h5 := e5 r i hr hi
    rw [f1, hFe] at h5
    rw [e6 r i hr hi] at hy
    obtain rfl | rfl : k = 0 ∨ k = 1 := by omega
    · exact ⟨h5.1, hy⟩
    · exact ⟨h5.2, hy⟩
  have hsb := (e3 ((r * (nPol * nCh) + i) * 2 + k) (by omega)).1
  generalize s ((r * (nPol * nCh) + i) * 2 + k) = s0 at c5 c6 hsb
  have hs0 : s0 < e.n := by
    rw [← hq, Encoder.quantCount] at hsb
    by_contra hc
    obtain rfl : s0 = e.n := by omega
    rw [hT.levels.slot] at c6
    rcases hfe with h1 | h1 <;> rw [h1] at c6 <;> simp [Fl.mul, Fl.cast] at c6
  rw [hT.levels.eq _ hs0] at c6
  have hfe : (metaView nR d).get r = .fin f := by
    rcases hfe with h1 | h1
    · exact h1
    · rw [h1] at c6
      simp only [Fl.mul] at c6
      split at c6 <;> simp [Fl.cast] at c6
  rw [hfe] at c6
  cases hv : Fl.cast Fl.r32 (Fl.mul Fl.r64 ((D r i).part k) (.fin F)) with
  | fin v =>
    refine ⟨v, s0, rfl, ?_, hs0, c6⟩
    rw [hv] at c5
    simpa [encFn] using c5
  | inf n =>
    have := hT.nonfinite Fl.r32 true (v := .inf n) rfl _ (by rw [← hv]; exact c5)
    rw [hT.levels.eq _ hs0] at this
    cases this
  | nan =>
    have := hT.nonfinite Fl.r32 true (v := .nan) rfl _ (by rw [← hv]; exact c5)
    rw [hT.levels.eq _ hs0] at this
    cases this

/-- **C136** Components of one row that get the same dither value come back in the same order, as far as they are read back
as numbers. -/
theorem row_order (sq : Fl → Fl) {e : Encoder} {b l : Nat → ℚ} {L : ℚ} (hT : Table e b l L)
    (hl : ∀ i, i < e.n → Fl.Repr Fl.binary32 (l i) ∧ |l i| < 2 ^ (128 : ℤ))
    (hb : Supported bits) (hq : e.quantCount = 2 ^ bits) (hR : 0 < nR)
    (h : Holds nR (nPol * nCh) A D data) (hF : ∀ r i, r < nR → i < nPol * nCh → FloatVis (D r i))
    (dith : Nat → Nat) (fuel : Nat) {packed : Mem 8} {unpacked out : Buf Nat}
    (hp : packed.len = blockSize nR (symbolCount nR nPol nCh) bits)
    (hu : unpacked.len = symbolCount nR nPol nCh) (ho : out.len = symbolCount nR nPol nCh)
    (dflt : DataRow Cx) (rows : Block Cx) :
    ∃ d x, writeBlock (encData .row sq e nPol nCh nAnt dith fuel data) bits nR (symbolCount nR nPol nCh)
        packed unpacked = .ok d ∧
      readBlock (decData .row e nPol nCh nAnt A) bits nR (symbolCount nR nPol nCh) nR dflt d out rows = .ok x ∧
      (∀ r i k i' k', r < nR → i < nPol * nCh → k < 2 → i' < nPol * nCh → k' < 2 →
        dith ((r * (nPol * nCh) + i) * 2 + k) = dith ((r * (nPol * nCh) + i') * 2 + k') →
        ∀ a a' y y', (D r i).part k = .fin a → (D r i').part k' = .fin a' → a ≤ a' →
          ((x.get r).vis.get i).part k = .fin y → ((x.get r).vis.get i').part k' = .fin y' → y ≤ y') ∧
      -- the sign, if zero is a level
      ((∃ m, m < e.n ∧ l m = 0) → ∀ r i k, r < nR → i < nPol * nCh → k < 2 →
        ∀ M a y, IsMax (nPol * nCh) (D r) M → 0 < M → (D r i).part k = .fin a →
          ((x.get r).vis.get i).part k = .fin y →
          ((2 : ℚ) ^ (-148 : ℤ) ≤ a * (L / M) → 0 ≤ y) ∧ (a * (L / M) ≤ -2 ^ (-148 : ℤ) → y ≤ 0)) := by
  obtain ⟨d, x, e1, e2, key⟩ := row_part (nAnt := nAnt) sq hT hl hb hq hR h hF dith fuel hp hu ho dflt rows
  have up : ∀ {c c' f : ℚ}, 0 ≤ f → c ≤ c' →
      Fl.le (Fl.mul Fl.r64 (.fin c) (.fin f)) (Fl.mul Fl.r64 (.fin c') (.fin f)) = true :=
    fun hf hc => Fl.le_round (by decide) (mul_le_mul_of_nonneg_right hc hf)
  have zero : ∀ {f : ℚ}, Fl.cast Fl.r32 (Fl.mul Fl.r64 (.fin 0) (.fin f)) = .fin 0 := by
    intro f
    simp only [Fl.mul, zero_mul, Fl.r64_zero, Fl.cast, Fl.r32_zero]
  refine ⟨d, x, e1, e2, ?_, ?_⟩
  · intro r i k i' k' hr hi hk hi' hk' hd a a' y y' ha ha' haa hy hy'
    obtain ⟨F, f, hF0, hf0, -, g⟩ := key r hr
    obtain ⟨v, s, v1, v2, v3, v4⟩ := g i k hi hk y hy
    obtain ⟨v', s', v1', v2', v3', v4'⟩ := g i' k' hi' hk' y' hy'
    rw [ha] at v1
    rw [ha'] at v1'
    have hvv := fin_le_of_cast (up hF0.le haa) v1 v1'
    rw [hd] at v2
    have hss := dither_monotone hT.levels (fun i hi => (hl i hi).1) hvv _ v2 v2'
    exact fin_le_of_cast (up hf0 (StrictlyAscending.asc hT.levels.asc s s' hss v3')) v4 v4'
  · rintro ⟨m, hm, hz⟩ r i k hr hi hk M a y hM hM0 ha hy
    obtain ⟨F, f, hF0, hf0, hFb, g⟩ := key r hr
    obtain ⟨v, s, v1, v2, v3, v4⟩ := g i k hi hk y hy
    rw [ha] at v1
    have hLM : 0 < L / M := div_pos hT.pos hM0
    have hlow : L / M ≤ 2 * F := by
      have h53 : (2 : ℚ) ^ (-53 : ℤ) ≤ 1 / 2 := by norm_num
      have h4 := mul_le_mul_of_nonneg_left h53 hLM.le
      have h5 := (abs_le.1 (hFb M hM hM0)).1
      generalize L / M * 2 ^ (-53 : ℤ) = u at h4 h5
      linarith
    have e149 : (2 : ℚ) ^ (-148 : ℤ) = 2 * 2 ^ (-149 : ℤ) := by
      rw [← zpow_one_add₀ (by norm_num)]
      norm_num
    have big : ∀ {c w : ℚ}, Fl.cast Fl.r32 (Fl.mul Fl.r64 (.fin c) (.fin F)) = .fin w →
        (2 : ℚ) ^ (-149 : ℤ) ≤ |c * F| → (2 : ℚ) ^ (-149 : ℤ) ≤ |w| := by
      intro c w hw hc
      simp only [Fl.mul] at hw
      cases h64 : Fl.r64 (c * F) with
      | fin u =>
        rw [h64] at hw
        exact (r32_pow_le (by norm_num) hw).1 (r64_pow_le (by norm_num) h64 hc)
      | inf n => rw [h64] at hw; simp [Fl.cast] at hw
      | nan => rw [h64] at hw; simp [Fl.cast] at hw
    have hsg := dither_sign hT.levels hm hz Fl.r32 _ v2
    constructor
    · intro hx
      have ha0 : 0 < a := by
        by_contra hc
        have h1 := mul_nonpos_of_nonpos_of_nonneg (not_lt.1 hc) hLM.le
        have h2 := Fl.zp_pos (-148)
        exact absurd (le_trans hx h1) (not_le.2 h2)
      have hv0 : 0 ≤ v := fin_le_of_cast (up hF0.le ha0.le) zero v1
      have hb' : (2 : ℚ) ^ (-149 : ℤ) ≤ |v| := by
        refine big v1 (le_trans ?_ (le_abs_self _))
        have h1 := mul_le_mul_of_nonneg_left hlow ha0.le
        rw [e149] at hx
        generalize (2 : ℚ) ^ (-149 : ℤ) = u at hx ⊢
        linarith
      rw [abs_of_nonneg hv0] at hb'
      exact fin_le_of_cast (up hf0 (hsg.1 (lt_of_lt_of_le (Fl.zp_pos _) hb'))) zero v4
    · intro hx
      have ha0 : a < 0 := by
        by_contra hc
        have h1 := mul_nonneg (not_lt.1 hc) hLM.le
        have h2 := Fl.zp_pos (-148)
        exact absurd (le_trans h1 hx) (not_le.2 (neg_neg_of_pos h2))
      have hv0 : v ≤ 0 := fin_le_of_cast (up hF0.le ha0.le) v1 zero
      have hb' : (2 : ℚ) ^ (-149 : ℤ) ≤ |v| := by
        refine big v1 (le_trans ?_ (neg_le_abs _))
        have h1 := mul_le_mul_of_nonpos_left hlow ha0.le
        rw [e149] at hx
        generalize (2 : ℚ) ^ (-149 : ℤ) = u at hx ⊢
        linarith
      rw [abs_of_nonpos hv0] at hb'
      have := Fl.zp_pos (-149)
      exact fin_le_of_cast (up hf0 (hsg.2.1 (by linarith))) v4 zero

/-- **C136** Weights come back in the same order. -/
theorem weights_order {rows : Block Fl} (hb : Supported bits) (hp : 1 ≤ nPol) (hc : 0 < nCh)
    {W : Nat → Nat → Nat → ℚ} (hW : Weight.HoldsWeights nPol nCh rows W)
    (hF : Weight.FloatWeights rows.len nCh nPol W) {m : Nat → Nat → ℚ}
    (hm : ∀ r c, r < rows.len → c < nCh → Weight.IsMin nPol (W r c) (m r c))
    {packed : Mem 8} {unpacked out : Buf Nat}
    (hp1 : packed.len = blockSize Weight.metaDataFloatCount (Weight.symbolCount rows.len nCh) bits)
    (hu1 : unpacked.len = Weight.symbolCount rows.len nCh) (ho1 : out.len = Weight.symbolCount rows.len nCh)
    (dflt : DataRow Fl) (dest : Block Fl) :
    ∃ d x, writeBlock (encWeight nPol nCh bits rows) bits Weight.metaDataFloatCount
        (Weight.symbolCount rows.len nCh) packed unpacked = .ok d ∧
      readBlock (decWeight nPol nCh bits) bits Weight.metaDataFloatCount
        (Weight.symbolCount rows.len nCh) rows.len dflt d out dest = .ok x ∧
      ∀ r i r' i', r < rows.len → i < nCh * nPol → r' < rows.len → i' < nCh * nPol → m r (i / nPol) ≤ m r' (i' / nPol) →
        ∃ y y', (x.get r).vis.get i = .fin y ∧ (x.get r').vis.get i' = .fin y' ∧ y ≤ y' := by
  have hq : 2 ≤ 2 ^ bits := by
    have : 2 ^ 1 ≤ 2 ^ bits := Nat.pow_le_pow_right (by decide) (by unfold Supported at hb; omega)
    simpa using this
  have hq2 : 2 ^ bits ≤ 2 ^ 16 := Nat.pow_le_pow_right (by decide) (by unfold Supported at hb; omega)
  obtain ⟨M, sym, hM, hw, henc⟩ := weightWrites hb hp hW hF hm
  obtain ⟨hmf, hM0, hMr, hM2⟩ := Weight.float_min_max hF hm hM
  have hkq : (0 : ℚ) < ((2 ^ bits - 1 : Nat) : ℚ) := by exact_mod_cast (by omega)
  have hk16 : ((2 ^ bits - 1 : Nat) : ℚ) < 2 ^ (128 : ℤ) := by
    refine lt_of_lt_of_le (b := ((2 ^ 16 : Nat) : ℚ)) (by exact_mod_cast (by omega)) ?_
    exact le_trans (by norm_num) (zpow_le_zpow_right₀ (m := 16) (n := 128) (by norm_num) (by norm_num))
  have hkr : Fl.Repr Fl.binary32 ((2 ^ bits - 1 : Nat) : ℚ) := Fl.repr32_nat (by omega)
  obtain ⟨⟨P, P0, p1, -, -⟩, Q, Q0, q1, -⟩ := r64_ratio (j := 0) hMr hM0 hM2 (by simpa using hMr) (by simpa using hM2)
    hkr hkq hk16
  obtain ⟨blk, l1, g1, g2, g3⟩ := writeBlock_spec hb hw
  obtain ⟨d, e1, k1, v1⟩ := g1 packed unpacked hp1 hu1
  have hH := End.holds_of_writes hb hw hp1 hu1 e1
  obtain ⟨x, e2, -, gx⟩ := readBlock_spec (weightReads (nR := rows.len) (nPol := nPol) (bits := bits) hc) hH.metaLen hH.symLen
    hH.below hH.size hH.floats hH.symbols dflt out ho1 dest
  -- symbols in order
  have hsym : ∀ {r c r' c' : Nat}, r < rows.len → c < nCh → r' < rows.len → c' < nCh → m r c ≤ m r' c' →
      sym.get (r * nCh + c) ≤ sym.get (r' * nCh + c') := by
    intro r c r' c' hr hc hr' hc' hmm
    have h1 := henc r c hr hc
    have h2 := henc r' c' hr' hc'
    simp only [Weight.encodeSample, q1] at h1 h2
    have h3 : Fl.le (Fl.mul Fl.r64 (.fin (m r c)) (.fin Q)) (Fl.mul Fl.r64 (.fin (m r' c')) (.fin Q)) = true :=
      Fl.le_round (by decide) (mul_le_mul_of_nonneg_right hmm Q0.le)
    cases hu : Fl.cast Fl.r32 (Fl.mul Fl.r64 (.fin (m r c)) (.fin Q)) with
    | fin u =>
      cases hv : Fl.cast Fl.r32 (Fl.mul Fl.r64 (.fin (m r' c')) (.fin Q)) with
      | fin v =>
        have huv := fin_le_of_cast h3 hu hv
        have h0 : 0 ≤ u := by
          refine fin_le_of_cast (u := Fl.mul Fl.r64 (.fin 0) (.fin Q)) ?_ ?_ hu
          · exact Fl.le_round (by decide) (mul_le_mul_of_nonneg_right (hmf r c hr hc).1 Q0.le)
          · simp only [Fl.mul, zero_mul, Fl.r64_zero, Fl.cast, Fl.r32_zero]
        rw [hu] at h1
        rw [hv] at h2
        simp only [Weight.roundf, if_pos h0, if_pos (le_trans h0 huv), Weight.toUnsigned] at h1 h2
        split at h1
        · split at h2
          · rw [← Option.some.inj h1, ← Option.some.inj h2]
            refine Int.toNat_le_toNat ?_
            rw [Int.floor_intCast, Int.floor_intCast]
            exact Int.floor_mono (by linarith)
          · cases h2
        · cases h1
      | inf n => rw [hv] at h2; simp [Weight.roundf, Weight.toUnsigned] at h2
      | nan => rw [hv] at h2; simp [Weight.roundf, Weight.toUnsigned] at h2
    | inf n => rw [hu] at h1; simp [Weight.roundf, Weight.toUnsigned] at h1
    | nan => rw [hu] at h1; simp [Weight.roundf, Weight.toUnsigned] at h1
  have hval : ∀ r i, r < rows.len → i < nCh * nPol → ∃ y, (x.get r).vis.get i = .fin y ∧
      Fl.cast Fl.r32 (Fl.mul Fl.r64 (.fin (sym.get (r * nCh + i / nPol))) (.fin P)) = .fin y := by
    intro r i hr hi
    have hi' : i / nPol < nCh := (Nat.div_lt_iff_lt_mul hp).2 hi
    obtain ⟨s, z, h1, -, h2, -⟩ := Weight.sample_core (2 ^ bits) hq hq2 (hmf r _ hr hi').1 (hmf r _ hr hi').2.1
      (hmf r _ hr hi').2.2 hM0 hMr hM2
    rw [henc r _ hr hi'] at h1
    obtain rfl := Option.some.inj h1
    refine ⟨z, ?_, ?_⟩
    · rw [(gx r hr).2 i hi]
      exact h2
    · simpa only [Weight.decodeSample, p1] using h2
  refine ⟨d, x, e1, e2, fun r i r' i' hr hi hr' hi' hmm => ?_⟩
  obtain ⟨y, y1, y2⟩ := hval r i hr hi
  obtain ⟨y', y1', y2'⟩ := hval r' i' hr' hi'
  refine ⟨y, y', y1, y1', fin_le_of_cast ?_ y2 y2'⟩
  have := hsym hr ((Nat.div_lt_iff_lt_mul hp).2 hi) hr' ((Nat.div_lt_iff_lt_mul hp).2 hi') hmm
  exact Fl.le_round (by decide) (mul_le_mul_of_nonneg_right (by exact_mod_cast this) P0.le)

/-! ## What does not hold -/

/-- With different dither values the order of values between the same two levels can be reversed: of the levels `-1, 0, 1`,
`1/4` gets `1` and `3/4` gets `0`. -/
theorem order_other_dither :
    Row.smallTable.encodeDither Fl.r32 (.fin (1 / 4)) 0 = some 2 ∧
    Row.smallTable.encodeDither Fl.r32 (.fin (3 / 4)) (2 ^ 31 - 1) = some 1 ∧
    Row.smallTable.level 1 = .fin 0 ∧ Row.smallTable.level 2 = .fin 1 := by
  decide +kernel

/-- The sign of a value that underflows when it is scaled can be lost: next to `2 ^ 127`, the smallest positive float becomes
zero, which with the largest dither values gets the level below zero; it is read back as `-2 ^ 127`. -/
theorem tiny_sign_lost :
    ∃ v, Fl.cast Fl.r32 (Fl.mul Fl.r64 (.fin (2 ^ (-149 : ℤ))) (Row.rowFactor Fl.r64 (.fin 1) (.fin (2 ^ 127)))) = .fin v ∧
      v = 0 ∧ Row.smallTable.encodeDither Fl.r32 (.fin v) (2 ^ 31 - 1) = some 0 ∧ Row.smallTable.level 0 = .fin (-1) ∧
      Fl.cast Fl.r32 (Fl.mul Fl.r64 (.fin (-1)) (Fl.cast Fl.r32 (Fl.div Fl.r64 (.fin (2 ^ 127)) (.fin 1)))) = .fin (-2 ^ 127) := by
  refine ⟨0, ?_⟩
  decide +kernel

/-! ## Examples -/

theorem smallTable_float : ∀ i, i < Row.smallTable.n → Fl.Repr Fl.binary32 ((i : ℚ) - 1) ∧ |(i : ℚ) - 1| < 2 ^ (128 : ℤ) := by
  intro i hi
  have hi : i < 3 := hi
  have h1 : Fl.Repr Fl.binary32 1 := by
    have := Fl.repr32_nat (n := 1) (by decide)
    simpa using this
  obtain rfl | rfl | rfl : i = 0 ∨ i = 1 ∨ i = 2 := by omega
  · rw [show ((0 : Nat) : ℚ) - 1 = -1 by norm_num, abs_neg]
    exact ⟨h1.neg, by norm_num⟩
  · rw [show ((1 : Nat) : ℚ) - 1 = 0 by norm_num, abs_zero]
    exact ⟨Fl.Repr.zero _, Fl.zp_pos _⟩
  · rw [show ((2 : Nat) : ℚ) - 1 = 1 by norm_num]
    exact ⟨h1, by norm_num⟩

/-- `1/3` and `1/2` with any dither value. -/
example (d s t : Nat) (hs : Row.smallTable.encodeDither Fl.r32 (.fin (1 / 3)) d = some s)
    (ht : Row.smallTable.encodeDither Fl.r32 (.fin (1 / 2)) d = some t) : s ≤ t :=
  dither_monotone Row.smallTable_ok.levels (fun i hi => (smallTable_float i hi).1) (by norm_num) d hs ht

example (s t : Nat) (hs : Row.smallTable.encodeDither Fl.r32 (.fin (1 / 3)) 1000 = some s)
    (ht : Row.smallTable.encodeDither Fl.r32 (.fin (1 / 3)) 2000 = some t) : t ≤ s :=
  dither_antitone Row.smallTable_ok.levels (1 / 3) (by decide) hs ht

example (d s : Nat) (hs : Row.smallTable.encodeDither Fl.r32 (.fin (1 / 3)) d = some s) : 0 ≤ ((s : ℚ) - 1) :=
  (dither_sign Row.smallTable_ok.levels (m := 1) (by decide) (by norm_num) Fl.r32 d hs).1 (by norm_num)

/-- Samples `1 + 2i`, `3 + 4i` … of one row: real and imaginary parts are read back in order with equal dither values. -/
example (packed : Mem 8) (hl : packed.len = 6) (dflt : DataRow Cx) (rows : Block Cx) :
    ∃ d x, writeBlock (encData .row id Row.smallTable 1 3 2 (fun _ => 77) 5
        ⟨1, fun _ => ⟨0, 1, ⟨3, fun i => ⟨.fin ((2 * i + 1 : Nat) : ℚ), .fin ((2 * i + 2 : Nat) : ℚ)⟩⟩⟩⟩) 2 1 6 packed ⟨6, fun _ => 0⟩ = .ok d ∧
      readBlock (decData .row Row.smallTable 1 3 2 fun _ => (0, 1)) 2 1 6 1 dflt d ⟨6, fun _ => 0⟩ rows = .ok x ∧
      ∀ y y', ((x.get 0).vis.get 0).im = .fin y → ((x.get 0).vis.get 2).re = .fin y' → y ≤ y' := by
  have hf : ∀ n : Nat, n < 100 → Fl.Repr Fl.binary32 (n : ℚ) ∧ |(n : ℚ)| < 2 ^ (128 : ℤ) := by
    intro n hn
    refine ⟨Fl.repr32_nat (by omega), ?_⟩
    rw [Nat.abs_cast]
    exact lt_of_lt_of_le (b := ((100 : Nat) : ℚ)) (by exact_mod_cast hn) (by norm_num)
  obtain ⟨d, x, e1, e2, h, -⟩ := row_order (nR := 1) (nPol := 1) (nCh := 3) (nAnt := 2) (bits := 2) (A := fun _ => (0, 1))
    (D := fun _ i => ⟨.fin ((2 * i + 1 : Nat) : ℚ), .fin ((2 * i + 2 : Nat) : ℚ)⟩) id Row.smallTable_ok smallTable_float
    (Or.inl rfl) rfl (by decide)
    (data := ⟨1, fun _ => ⟨0, 1, ⟨3, fun i => ⟨.fin ((2 * i + 1 : Nat) : ℚ), .fin ((2 * i + 2 : Nat) : ℚ)⟩⟩⟩⟩)
    ⟨rfl, fun _ _ => rfl, fun _ _ => rfl, fun _ _ _ _ => rfl⟩
    (fun r i _ hi a ha => by
      have hi : i < 3 := hi
      rcases ha with ha | ha
      · rw [← Fl.fin.inj ha]
        exact hf _ (by omega)
      · rw [← Fl.fin.inj ha]
        exact hf _ (by omega))
    (fun _ => 77) 5 hl (unpacked := ⟨6, fun _ => 0⟩) (out := ⟨6, fun _ => 0⟩) rfl rfl dflt rows
  exact ⟨d, x, e1, e2, fun y y' hy hy' => h 0 0 1 2 0 (by decide) (by decide) (by decide) (by decide) (by decide) rfl
    _ _ y y' rfl rfl (by norm_num) hy hy'⟩

/-- The weights 1, 2 and 3. -/
example (packed : Mem 8) (hl : packed.len = 5) (dflt : DataRow Fl) (dest : Block Fl) :
    ∃ d x, writeBlock (encWeight 1 3 2 ⟨1, fun _ => ⟨0, 1, ⟨3, fun i => .fin ((i : ℚ) + 1)⟩⟩⟩) 2 1 3 packed
        ⟨3, fun _ => 0⟩ = .ok d ∧
      readBlock (decWeight 1 3 2) 2 1 3 1 dflt d ⟨3, fun _ => 0⟩ dest = .ok x ∧
      ∃ y y', (x.get 0).vis.get 1 = .fin y ∧ (x.get 0).vis.get 2 = .fin y' ∧ y ≤ y' := by
  obtain ⟨d, x, e1, e2, h⟩ := weights_order (nPol := 1) (nCh := 3) (bits := 2)
    (rows := ⟨1, fun _ => ⟨0, 1, ⟨3, fun i => .fin ((i : ℚ) + 1)⟩⟩⟩) (Or.inl rfl) (by decide) (by decide)
    (W := fun _ c _ => (c : ℚ) + 1) (m := fun _ c => (c : ℚ) + 1)
    (fun r _ => ⟨rfl, fun c p _ hp => by
      obtain rfl : p = 0 := by omega
      simp⟩)
    (fun r c p _ hc _ => ⟨by positivity, by
      have h1 : (c : ℚ) < 3 := by exact_mod_cast hc
      exact lt_of_lt_of_le (b := (4 : ℚ)) (by linarith) (by norm_num), by
      have := Fl.repr32_nat (n := c + 1) (by omega)
      push_cast at this
      exact this⟩)
    (fun r c _ _ => ⟨⟨0, by decide, rfl⟩, fun _ _ => le_rfl⟩) hl
    (unpacked := ⟨3, fun _ => 0⟩) (out := ⟨3, fun _ => 0⟩) rfl rfl dflt dest
  exact ⟨d, x, e1, e2, h 0 1 0 2 (by decide) (by decide) (by decide) (by decide) (by norm_num)⟩

end Dysco.Layout
