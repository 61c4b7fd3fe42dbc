import Verif.Again
import Verif.EndPrepare

/-!
# C147 for the uniform quantiser that a data column makes

The levels of the table of floats are evenly spaced up to rounding, so that the smallest distance of levels is known.
-/

namespace Dysco.Layout
open BytePacker TimeBlock Stochastic
open Prepare (sqrt3)

/-- The uniform quantiser that a data column makes: its levels are evenly spaced and symmetric, up to rounding. -/
theorem uniform_levels {lib : Prepare.Lib} {fl : Nat} {e0 t0 : Nat → Fl} {e : Encoder}
    (he : Prepare.encoder lib fl .uniform bits e0 t0 = some e) (hb : Supported bits) :
    ∃ b l L, Table e b l L ∧ FloatLevels e.n l ∧ e.quantCount = 2 ^ bits ∧ 1 ≤ L ∧ L ≤ sqrt3 ∧ -(L * (600001 / 600000)) ≤ l 0 ∧
      Row.Gaps e.n l (sqrt3 * (2 / ((2 ^ bits - 1 : Nat) : ℚ) + 1 / 10 ^ 6)) ∧
      Row.Apart e.n l (sqrt3 * (2 / ((2 ^ bits - 1 : Nat) : ℚ) - 1 / 10 ^ 6)) := by
  have h16 : bits ≤ 16 := by
    rcases hb with h | h | h | h | h | h | h | h <;> omega
  have h2 : 2 ≤ bits := by
    rcases hb with h | h | h | h | h | h | h | h <;> omega
  have hq4 : 2 ^ 2 ≤ 2 ^ bits := Nat.pow_le_pow_right (by norm_num) h2
  have hq16 : 2 ^ bits ≤ 2 ^ 16 := Nat.pow_le_pow_right (by norm_num) h16
  obtain ⟨e', b, l, L, t1, t2, t3⟩ := Prepare.uniform_usable bits h2 h16 lib fl e0 t0
  obtain rfl : e' = e := Option.some.inj (t1.symm.trans he)
  obtain ⟨e'', b', l', w1, w2, -, w4, -, w6, -⟩ := Quantile.uniform_table (2 ^ bits) (by omega) hq16 (sd := sqrt3)
    (by norm_num [sqrt3]) (by norm_num [sqrt3]) e0 t0
  obtain rfl : e'' = e' := Option.some.inj (w1.symm.trans he)
  have hlv := t2.table.levels
  have hn2 := hlv.two
  have hn : e''.n = 2 ^ bits - 1 := by
    have : e''.n + 1 = 2 ^ bits := w2
    omega
  have hll : ∀ s, s < e''.n → l s = l' s := fun s hs => Fl.fin.inj ((hlv.eq s hs).symm.trans (w4.eq s hs))
  have hrep : ∀ i, i < e''.n → Fl.Repr Fl.binary32 (l i) := fun i hi =>
    Prepare.level_repr (by omega) (Prepare.value_isFloat lib fl .uniform) t1 hlv hi
  have hcount := t2.count
  have hgap := t2.gap
  have htop := t2.table.top
  have htab := t2.table
  clear w1 t1 he
  generalize hN : 2 ^ bits - 1 = N at *
  have hN3 : 3 ≤ N := by omega
  have hN3' : (3 : ℚ) ≤ N := by exact_mod_cast hN3
  have hinv : (1 : ℚ) / N ≤ 1 / 3 := one_div_le_one_div_of_le (by norm_num) hN3'
  have hinv0 : (0 : ℚ) < 1 / N := by positivity
  have s1 : sqrt3 ≤ 17321 / 10000 := by norm_num [sqrt3]
  have s2 : 1732 / 1000 ≤ sqrt3 := by norm_num [sqrt3]
  have hlev : ∀ s, s < N → |l s - (sqrt3 * (-1 + 1 / N) + sqrt3 * (2 / N) * s)| ≤ 5 / 10 ^ 7 * sqrt3 := by
    intro s hs
    have := w6 s hs
    rw [hll s (by omega), show sqrt3 * (-1 + 1 / N) + sqrt3 * (2 / N) * s = sqrt3 * (-1 + 2 * ((s + 1 / 2) / N)) by ring]
    exact this
  have hb3 := abs_le.mp t3
  have e4 : sqrt3 * (1 - 1 / N) = sqrt3 - sqrt3 * (1 / N) := by ring
  have hsN : sqrt3 * (1 / N) ≤ sqrt3 * (1 / 3) := mul_le_mul_of_nonneg_left hinv (by linarith)
  have hsmall : (1 : ℚ) / 10 ^ 6 ≤ 1 / N := by
    refine one_div_le_one_div_of_le (by linarith) ?_
    have h3 : (N : ℚ) ≤ (65536 : Nat) := by
      rw [Nat.cast_le]
      have : 2 ^ 16 = 65536 := by norm_num
      omega
    norm_num at h3 ⊢
    linarith
  have hsN1 : sqrt3 * (1 / 10 ^ 6) ≤ sqrt3 * (1 / N) := mul_le_mul_of_nonneg_left hsmall (by linarith)
  rw [e4] at hb3
  have hL1 : 1 ≤ L := by linarith [hb3.1]
  have hL3 : L ≤ sqrt3 := by linarith [hb3.2]
  have hlow : -(L * (600001 / 600000)) ≤ l 0 := by
    have h3 := (abs_le.1 (hlev 0 (by omega))).1
    rw [Nat.cast_zero, mul_zero, add_zero, show sqrt3 * (-1 + 1 / (N : ℚ)) = -sqrt3 + sqrt3 * (1 / N) by ring] at h3
    linarith [hb3.1]
  refine ⟨b, l, L, htab, fun i hi => ⟨hrep i hi, ?_⟩, hcount, hL1, hL3, hlow, hgap, ?_⟩
  · have h3 := StrictlyAscending.asc hlv.asc 0 i (by omega) hi
    have h4 := StrictlyAscending.asc hlv.asc i (e''.n - 1) (by omega) (by omega)
    rw [htop] at h4
    rw [abs_le]
    constructor <;> norm_num <;> linarith
  · intro k hk
    have h3 := (abs_le.1 (hlev k (by omega))).2
    have h4 := (abs_le.1 (hlev (k + 1) (by omega))).1
    rw [Nat.cast_succ, mul_add (sqrt3 * (2 / (N : ℚ))), mul_one] at h4
    rw [mul_sub]
    linarith

/-- **C147** for the uniform quantiser that a data column makes: with `N = 2^bits - 1` levels all but at most `N/600000` of the
dither values lead to what was read before. -/
theorem uniform_twice (sq : Fl → Fl) {lib : Prepare.Lib} {fl : Nat} {e0 t0 : Nat → Fl} {e : Encoder}
    (he : Prepare.encoder lib fl .uniform bits e0 t0 = some e) (hb : Supported bits)
    (h : Holds nR (nPol * nCh) A D data) (hF : ∀ r i, r < nR → i < nPol * nCh → FloatVis (D r i))
    {dith : Nat → Nat} (fuel : Nat) {packed packed' : Mem 8} {unpacked unpacked' out out' : Buf Nat}
    (hp : packed.len = blockSize nR (symbolCount nR nPol nCh) bits) (hp' : packed'.len = blockSize nR (symbolCount nR nPol nCh) bits)
    (hu : unpacked.len = symbolCount nR nPol nCh) (hu' : unpacked'.len = symbolCount nR nPol nCh)
    (ho : out.len = symbolCount nR nPol nCh) (ho' : out'.len = symbolCount nR nPol nCh)
    (dflt : DataRow Cx) (rows rows' : Block Cx) {d0 : Mem 8} {x0 : Block Cx}
    (h1 : writeBlock (encData .row sq e nPol nCh nAnt dith fuel data) bits nR (symbolCount nR nPol nCh) packed unpacked = .ok d0)
    (h2 : readBlock (decData .row e nPol nCh nAnt A) bits nR (symbolCount nR nPol nCh) nR dflt d0 out rows = .ok x0)
    (h' : Holds nR (nPol * nCh) A (fun r i => (x0.get r).vis.get i) data')
    {r k : Nat} (hr : r < nR) (hk : k < nPol * nCh) {M u v : ℚ} (hM : IsMax (nPol * nCh) (D r) M)
    (hMs : 3 * 2 ^ (-110 : ℤ) ≤ M) (hM2 : M ≤ 2 ^ (126 : ℤ)) (hre : (D r k).re = .fin u) (him : (D r k).im = .fin v)
    (hmax : u = M ∧ dith ((r * (nPol * nCh) + k) * 2) < 2 ^ 31 - 64 ∨
      v = M ∧ dith ((r * (nPol * nCh) + k) * 2 + 1) < 2 ^ 31 - 64)
    {i : Nat} (hi : i < nPol * nCh) {m a : ℚ} (hc : Counted ((x0.get r).vis.get i) m) {part : Cx → Fl} {j : Nat}
    (hpart : part = Cx.re ∧ j = (r * (nPol * nCh) + i) * 2 ∨ part = Cx.im ∧ j = (r * (nPol * nCh) + i) * 2 + 1)
    (ha : part ((x0.get r).vis.get i) = .fin a) :
    ∃ y, ReadBack sq e nR nPol nCh nAnt bits fuel A data' packed' unpacked' out' dflt rows' j r i part y ∧
      Row.share (fun m => ¬ |y m - a| ≤ M * (1 / 340000)) ≤ ((2 ^ bits - 1 : Nat) : ℚ) / 600000 := by
  obtain ⟨b, l, L, c1, c2, c3, c4, c5, c6, c7, c8⟩ := uniform_levels he hb
  have s1 : sqrt3 ≤ 17321 / 10000 := by norm_num [sqrt3]
  have s2 : 1732 / 1000 ≤ sqrt3 := by norm_num [sqrt3]
  have hN3 : 3 ≤ 2 ^ bits - 1 := by
    have : 2 ^ 2 ≤ 2 ^ bits := Nat.pow_le_pow_right (by norm_num) (by
      rcases hb with h | h | h | h | h | h | h | h <;> omega)
    omega
  have hN6 : 2 ^ bits - 1 ≤ 65535 := by
    have : 2 ^ bits ≤ 2 ^ 16 := Nat.pow_le_pow_right (by norm_num) (by
      rcases hb with h | h | h | h | h | h | h | h <;> omega)
    have : 2 ^ 16 = 65536 := by norm_num
    omega
  have hN3' : (3 : ℚ) ≤ ((2 ^ bits - 1 : Nat) : ℚ) := by exact_mod_cast hN3
  have hN6' : ((2 ^ bits - 1 : Nat) : ℚ) ≤ 65535 := by exact_mod_cast hN6
  have hγ : 0 < sqrt3 * (2 / ((2 ^ bits - 1 : Nat) : ℚ) - 1 / 10 ^ 6) := by
    refine mul_pos (by linarith) (sub_pos.2 ?_)
    clear hM2 hMs c7 c8
    generalize ((2 ^ bits - 1 : Nat) : ℚ) = N at *
    rw [div_lt_div_iff₀ (by norm_num) (by linarith)]
    norm_num
    linarith
  have hMs' : (L + 1) * 2 ^ (-110 : ℤ) ≤ M := by
    refine le_trans (mul_le_mul_of_nonneg_right ?_ (Fl.zp_pos (-110)).le) hMs
    linarith
  obtain ⟨y, y1, y2⟩ := row_twice (nAnt := nAnt) sq c1 c2 c7 hγ c8 c6 c4 hb c3 h hF fuel hp hp' hu hu' ho ho' dflt rows rows' h1 h2 h'
    hr hk hM hMs' hM2 hre him hmax hi hc hpart ha
  refine ⟨y, y1, le_trans y2 ?_⟩
  clear y1 y2 hM2 hMs hMs'
  generalize ((2 ^ bits - 1 : Nat) : ℚ) = N at *
  have hN0 : 0 < N := by linarith
  rw [div_le_iff₀ hγ]
  have e1 : N / 600000 * (sqrt3 * (2 / N - 1 / 10 ^ 6)) = sqrt3 * (1 / 300000 - N / 600000000000) := by
    field_simp
    ring
  have e2 : sqrt3 * (2 / N + 1 / 10 ^ 6) / 2 ^ 22 ≤ sqrt3 * (1 / 6000000) := by
    rw [mul_div_assoc]
    refine mul_le_mul_of_nonneg_left ?_ (by linarith)
    have : 2 / N ≤ 2 / 3 := div_le_div_of_nonneg_left (by norm_num) (by norm_num) hN3'
    linarith
  have e3 : sqrt3 * (1 / 300000 - 65535 / 600000000000) ≤ sqrt3 * (1 / 300000 - N / 600000000000) :=
    mul_le_mul_of_nonneg_left (by linarith) (by linarith)
  rw [e1]
  linarith

/-- The sample `3 - i` in a column of 8 bits: the second time its imaginary part is read as before, up to `3/340000`, for all but
255 of 600000 of the dither values. -/
example (lib : Prepare.Lib) (fl : Nat) (e0 t0 : Nat → Fl) (packed packed' : Mem 8) (hl : packed.len = blockSize 1 2 8)
    (hl' : packed'.len = blockSize 1 2 8) (dflt : DataRow Cx) (rows rows' : Block Cx) (dith : Nat → Nat) (hd : dith 0 < 2 ^ 31 - 64) :
    ∃ e d x a, Prepare.encoder lib fl .uniform 8 e0 t0 = some e ∧
      writeBlock (encData .row id e 1 1 2 dith 5 ⟨1, fun _ => ⟨0, 1, ⟨1, fun _ => ⟨.fin 3, .fin (-1)⟩⟩⟩⟩) 8 1 2
        packed ⟨2, fun _ => 0⟩ = .ok d ∧
      readBlock (decData .row e 1 1 2 fun _ => (0, 1)) 8 1 2 1 dflt d ⟨2, fun _ => 0⟩ rows = .ok x ∧
      ((x.get 0).vis.get 0).im = .fin a ∧
      ∃ y, ReadBack id e 1 1 1 2 8 5 (fun _ => (0, 1)) ⟨1, fun r => ⟨0, 1, ⟨1, fun i => (x.get r).vis.get i⟩⟩⟩ packed'
          ⟨2, fun _ => 0⟩ ⟨2, fun _ => 0⟩ dflt rows' 1 0 0 Cx.im y ∧
        Row.share (fun m => ¬ |y m - a| ≤ 3 * (1 / 340000)) ≤ 255 / 600000 := by
  obtain ⟨e, -, -, -, he, -, -⟩ := Prepare.uniform_usable 8 (by norm_num) (by norm_num) lib fl e0 t0
  have hb : Supported 8 := by
    unfold Supported
    omega
  obtain ⟨b, l, L, c1, c2, c3, c4, c5, c6, c7, c8⟩ := uniform_levels he hb
  have s1 : sqrt3 ≤ 17321 / 10000 := by norm_num [sqrt3]
  have hh : Holds 1 (1 * 1) (fun _ => (0, 1)) (fun _ _ => ⟨.fin 3, .fin (-1)⟩)
      ⟨1, fun _ => ⟨0, 1, ⟨1, fun _ => ⟨.fin 3, .fin (-1)⟩⟩⟩⟩ := ⟨rfl, fun _ _ => rfl, fun _ _ => rfl, fun _ _ _ _ => rfl⟩
  have hF : ∀ r i, r < 1 → i < 1 * 1 → FloatVis ((fun _ _ => ⟨.fin 3, .fin (-1)⟩ : Nat → Nat → Cx) r i) := by
    rintro r i - - a (h | h)
    · obtain rfl : 3 = a := by simpa using h
      exact ⟨by exact_mod_cast Fl.repr32_nat (n := 3) (by norm_num), by norm_num⟩
    · obtain rfl : -1 = a := by simpa using h
      refine ⟨?_, by norm_num⟩
      have := (Fl.repr32_nat (n := 1) (by norm_num)).neg
      simpa using this
  have hc : Counted (⟨.fin 3, .fin (-1)⟩ : Cx) 3 := ⟨3, rfl, Or.inl ⟨-1, rfl, by norm_num⟩⟩
  have hM : IsMax (1 * 1) (fun _ => (⟨.fin 3, .fin (-1)⟩ : Cx)) 3 :=
    ⟨by norm_num, fun i m _ h => (hc.unique h).ge, Or.inr ⟨0, by decide, hc⟩⟩
  obtain ⟨d, x, s, b1, b2, b3, b4, b5, b6⟩ := row_block (nAnt := 2) (nPol := 1) (nCh := 1) (bits := 8) id c1
    hb c3 (by decide) hh dith 5 hl (unpacked := ⟨2, fun _ => 0⟩) (out := ⟨2, fun _ => 0⟩) rfl rfl dflt rows
  have hLr : Fl.Repr Fl.binary32 L := by
    rw [← c1.top]
    exact (c2 _ (by have := c1.levels.two; omega)).1
  have hL2 : L < 2 ^ (128 : ℤ) := lt_of_le_of_lt c1.le fltMax_lt
  have hpart : ∀ {w : ℚ} {j : Nat}, Fl.Repr Fl.binary32 w → |w| ≤ 3 → j < 2 →
      encFn Fl.r32 e true (Fl.cast Fl.r32 (Fl.mul Fl.r64 (.fin w) (Row.rowFactor Fl.r64 (.fin L) (.fin 3)))) (dith j) =
        some (s j) → ∃ a, Fl.cast Fl.r32 (Fl.mul Fl.r64 (e.level (s j))
          (Fl.cast Fl.r32 (Fl.div Fl.r64 (.fin 3) (.fin L)))) = .fin a := by
    intro w j hw hw3 hj hs
    have h3 : Fl.Repr Fl.binary32 (3 : ℚ) := by exact_mod_cast Fl.repr32_nat (n := 3) (by norm_num)
    obtain ⟨q, q1, -⟩ := Row.component_real c1.pos hLr hL2 hw hw3 h3 (by norm_num)
    rw [q1] at hs
    obtain ⟨k, g1, g2, -⟩ := dither_neighbour c1.levels Fl.r32 q (dith j)
    obtain rfl : k = s j := Option.some.inj (g1.symm.trans (by simpa [encFn] using hs))
    have hlk : |l (s j)| ≤ 5 / 4 * L := by
      have h4 := StrictlyAscending.asc c1.levels.asc 0 (s j) (by omega) g2
      have h5 := StrictlyAscending.asc c1.levels.asc (s j) (e.n - 1) (by omega) (by omega)
      rw [c1.top] at h5
      exact abs_le.2 ⟨by linarith, by linarith⟩
    obtain ⟨y, y1, -⟩ := Row.decode_component c1.pos hL2 hlk (by norm_num : (0 : ℚ) < 3) h3 (by norm_num)
      (le_trans (div_le_self (by norm_num) c4) (by norm_num))
    exact ⟨y, by rw [c1.levels.eq _ g2]; exact y1⟩
  have h5 := b5 0 0 (by decide) (by decide)
  rw [maxFold_eq hM] at h5
  obtain ⟨p, hp⟩ := hpart (hF 0 0 (by decide) (by decide) 3 (Or.inl rfl)).1 (by norm_num) (by decide) h5.1
  obtain ⟨a, ha⟩ := hpart (hF 0 0 (by decide) (by decide) (-1) (Or.inr rfl)).1 (by norm_num) (by decide) h5.2
  have hx := b6 0 0 (by decide) (by decide)
  rw [b4 0 (by decide), maxFold_eq hM] at hx
  have hre : ((x.get 0).vis.get 0).re = .fin p := by
    rw [hx]
    exact hp
  have him : ((x.get 0).vis.get 0).im = .fin a := by
    rw [hx]
    exact ha
  obtain ⟨y, y1, y2⟩ := uniform_twice (nAnt := 2) (nPol := 1) (nCh := 1) (bits := 8) id he
    hb hh hF 5 hl hl' (unpacked' := ⟨2, fun _ => 0⟩) (out' := ⟨2, fun _ => 0⟩) rfl rfl rfl rfl dflt rows rows' b1 b2
    (data' := ⟨1, fun r => ⟨0, 1, ⟨1, fun i => (x.get r).vis.get i⟩⟩⟩)
    ⟨rfl, fun _ _ => rfl, fun _ _ => rfl, fun _ _ _ _ => rfl⟩ (r := 0) (k := 0) (by decide) (by decide) hM (by norm_num) (by norm_num)
    rfl rfl (Or.inl ⟨rfl, hd⟩) (i := 0) (by decide) (m := max |p| |a|) ⟨p, hre, Or.inl ⟨a, him, rfl⟩⟩ (Or.inr ⟨rfl, rfl⟩) him
  exact ⟨e, d, x, a, he, b1, b2, him, y, y1, le_trans y2 (by norm_num)⟩

end Dysco.Layout
