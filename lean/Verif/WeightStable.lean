import Verif.EndProps

/-!
# C134: compressing decompressed weights again changes nothing

A weight that is read from a compressed column is a multiple of `max / (2^bits - 1)`, rounded to float. Compressing these
weights again finds the same maximum, because the largest weight is kept exactly, and the same symbols, because the
rounding errors are much smaller than half a step. So the block has the same bytes.
-/

namespace Dysco.Weight

/-- One weight: the symbol of the decoded value of a symbol is that symbol. -/
theorem symbol_stable (q : Nat) (hq : 2 ≤ q) (hq2 : q ≤ 2 ^ 16) {M : ℚ} (hM : (2 : ℚ) ^ (-126 : ℤ) ≤ M)
    (hMr : Fl.Repr Fl.binary32 M) (hM2 : M < 2 ^ (128 : ℤ)) {s : Nat} (hs : s < q) :
    ∃ y, decodeSample Fl.r32 Fl.r64 q (.fin M) s = .fin y ∧ 0 ≤ y ∧ y ≤ M ∧ Fl.Repr Fl.binary32 y ∧
      encodeSample Fl.r32 Fl.r64 q (.fin M) (.fin y) = some s := by
  set k := q - 1 with hk
  have hkpos : 0 < k := by omega
  have hkq : (0 : ℚ) < k := by exact_mod_cast hkpos
  have hk1 : (1 : ℚ) ≤ k := by exact_mod_cast hkpos
  have hk16 : (k : ℚ) ≤ 2 ^ (16 : ℤ) := by
    have : k ≤ 2 ^ 16 := by omega
    exact_mod_cast this
  have hM0 : 0 < M := lt_of_lt_of_le (Fl.zp_pos _) hM
  have z : ∀ {i j : ℤ}, i ≤ j → (2 : ℚ) ^ i ≤ 2 ^ j := fun h => zpow_le_zpow_right₀ (by norm_num) h
  have hkr : Fl.Repr Fl.binary32 (k : ℚ) := Fl.repr32_nat (by omega)
  have hsk' : s ≤ k := by omega
  have hsk : (s : ℚ) ≤ k := by exact_mod_cast hsk'
  obtain ⟨U, eU, u0, uM, uerr, -, -⟩ := Fl.prod_core (a := s) (b := M) (c := k) (L := M)
    (by
      rcases Nat.eq_zero_or_pos s with h | h
      · left; rw [h]; norm_num
      · right
        have : (1 : ℚ) ≤ s := by exact_mod_cast h
        have h2 : (2 : ℚ) ^ (-300 : ℤ) ≤ 2 ^ (0 : ℤ) := z (by norm_num)
        rw [zpow_zero] at h2
        linarith)
    (le_trans hsk (le_trans hk16 (z (by norm_num)))) hkq
    (by
      rw [le_div_iff₀ hkq]
      have h1 : (2 : ℚ) ^ (-300 : ℤ) * k ≤ 2 ^ (-300 : ℤ) * 2 ^ (16 : ℤ) :=
        mul_le_mul_of_nonneg_left hk16 (by positivity)
      rw [← zpow_add₀ (by norm_num)] at h1
      have h2 : (2 : ℚ) ^ (-300 + 16 : ℤ) ≤ 2 ^ (-126 : ℤ) := z (by norm_num)
      linarith)
    (by
      rw [div_le_iff₀ hkq]
      have h2 : (2 : ℚ) ^ (128 : ℤ) ≤ 2 ^ (300 : ℤ) := z (by norm_num)
      refine le_trans (le_trans hM2.le h2) ?_
      exact le_mul_of_one_le_right (by positivity) hk1)
    hM0 hMr hM2
    (by
      rw [← mul_div_assoc, div_le_iff₀ hkq]
      nlinarith)
  have hUr : Fl.Repr Fl.binary32 U := by
    have h := Fl.isFloat_cast (Fl.mul Fl.r64 (.fin (s : ℚ)) (Fl.div Fl.r64 (.fin M) (.fin (k : ℚ))))
    rw [eU] at h
    exact (h U rfl).1
  obtain ⟨Y, eY, y0, yk, yerr, -, -⟩ := Fl.prod_core (a := U) (b := k) (c := M) (L := k)
    (by
      rcases u0.eq_or_lt with h | h
      · exact Or.inl h.symm
      · exact Or.inr (le_trans (z (by norm_num)) (Fl.repr32_ge hUr h)))
    (le_trans uM (le_trans hM2.le (z (by norm_num)))) hM0
    (by
      rw [le_div_iff₀ hM0]
      have h1 : (2 : ℚ) ^ (-300 : ℤ) * M ≤ 2 ^ (-300 : ℤ) * 2 ^ (128 : ℤ) :=
        mul_le_mul_of_nonneg_left hM2.le (by positivity)
      rw [← zpow_add₀ (by norm_num)] at h1
      have h2 : (2 : ℚ) ^ (-300 + 128 : ℤ) ≤ 2 ^ (0 : ℤ) := z (by norm_num)
      rw [zpow_zero] at h2
      linarith)
    (by
      rw [div_le_iff₀ hM0]
      have h1 : (2 : ℚ) ^ (300 : ℤ) * 2 ^ (-126 : ℤ) ≤ 2 ^ (300 : ℤ) * M :=
        mul_le_mul_of_nonneg_left hM (by positivity)
      rw [← zpow_add₀ (by norm_num)] at h1
      have h2 : (2 : ℚ) ^ (16 : ℤ) ≤ 2 ^ (300 + -126 : ℤ) := z (by norm_num)
      linarith)
    hkq hkr (lt_of_le_of_lt hk16 (by norm_num))
    (by
      rw [← mul_div_assoc, div_le_iff₀ hM0]
      nlinarith)
  obtain ⟨s', es, sk, serr, -, -⟩ := toUnsigned_roundf y0 yk (by omega : k < 2 ^ 32)
  refine ⟨U, eU, u0, uM, hUr, ?_⟩
  have hss : s' = s := by
    -- the distance is below one
    have e1 : Y - s = (Y - U * (k / M)) + (U - s * (M / k)) * (k / M) := by
      have : (s : ℚ) * (M / k) * (k / M) = s := by field_simp
      rw [sub_mul, this]
      ring
    have hkM : 0 < (k : ℚ) / M := by positivity
    have a1 : |(U - s * (M / k)) * (k / M)| ≤ (M * (1 / 16000000) + 2 ^ (-150 : ℤ)) * (k / M) := by
      rw [abs_mul, abs_of_pos hkM]
      exact mul_le_mul_of_nonneg_right uerr hkM.le
    have a2 : (M * (1 / 16000000) + 2 ^ (-150 : ℤ)) * ((k : ℚ) / M) = k * (1 / 16000000) + 2 ^ (-150 : ℤ) * (k / M) := by
      rw [add_mul]
      congr 1
      field_simp
    have a3 : (2 : ℚ) ^ (-150 : ℤ) * (k / M) ≤ 1 / 256 := by
      rw [← mul_div_assoc, div_le_iff₀ hM0]
      have h1 : (2 : ℚ) ^ (-150 : ℤ) * k ≤ 2 ^ (-150 : ℤ) * 2 ^ (16 : ℤ) := mul_le_mul_of_nonneg_left hk16 (by positivity)
      rw [← zpow_add₀ (by norm_num)] at h1
      have h2 : (2 : ℚ) ^ (-150 + 16 : ℤ) = 1 / 256 * 2 ^ (-126 : ℤ) := by
        rw [show (1 / 256 : ℚ) = 2 ^ (-8 : ℤ) by norm_num, ← zpow_add₀ (by norm_num)]
        norm_num
      refine le_trans h1 ?_
      rw [h2]
      exact mul_le_mul_of_nonneg_left hM (by norm_num)
    have a4 : (2 : ℚ) ^ (-150 : ℤ) ≤ 1 / 256 := by
      have := z (i := -150) (j := -8) (by norm_num)
      have e : (2 : ℚ) ^ (-8 : ℤ) = 1 / 256 := by norm_num
      linarith
    have e16 : (2 : ℚ) ^ (16 : ℤ) = 65536 := by norm_num
    rw [e16] at hk16
    have t1 := abs_add_le (Y - U * (k / M)) ((U - s * (M / k)) * (k / M))
    rw [← e1] at t1
    have t2 : |Y - s| ≤ 1 / 8 := by linarith
    have t3 : |(s' : ℚ) - s| < 1 := by
      have := abs_add_le ((s' : ℚ) - Y) (Y - s)
      rw [sub_add_sub_cancel] at this
      linarith
    have t4 : |(s' : ℤ) - s| < 1 := by exact_mod_cast t3
    have := Int.abs_lt_one_iff.1 t4
    omega
  unfold encodeSample
  rw [eY, es, hss]

theorem IsBlockMax.unique {nR nCh : Nat} {m : Nat → Nat → ℚ} {M M' : ℚ} (h : IsBlockMax nR nCh m M)
    (h' : IsBlockMax nR nCh m M') : M = M' := by
  rcases h.2 with ⟨p, r, c, hr, hc, e⟩ | ⟨e, hz⟩ <;> rcases h'.2 with ⟨p', r', c', hr', hc', e'⟩ | ⟨e', hz'⟩
  · have h1 := h'.1 r c hr hc
    have h2 := h.1 r' c' hr' hc'
    linarith
  · have := hz' r c hr hc
    linarith
  · have := hz r' c' hr' hc'
    linarith
  · rw [e, e']

/-- With 16 bits and a largest weight that is no normal float the condition is needed: the weight `57813 * 2^-149` gets the
symbol 58034, is read back as `57814 * 2^-149`, and this gets the symbol 58035. -/
theorem tiny_weights_unstable :
    let u : ℚ := 1 / 2 ^ 149
    Fl.Repr Fl.binary32 (65286 * u) ∧ Fl.Repr Fl.binary32 (57813 * u) ∧
    encodeSample Fl.r32 Fl.r64 (2 ^ 16) (.fin (65286 * u)) (.fin (57813 * u)) = some 58034 ∧
    decodeSample Fl.r32 Fl.r64 (2 ^ 16) (.fin (65286 * u)) 58034 = .fin (57814 * u) ∧
    encodeSample Fl.r32 Fl.r64 (2 ^ 16) (.fin (65286 * u)) (.fin (57814 * u)) = some 58035 := by
  intro u
  have hu : u = (2 : ℚ) ^ (-149 : ℤ) := by
    rw [zpow_neg]
    norm_num [u]
  refine ⟨⟨65286, -149, le_rfl, by decide, ?_⟩, ⟨57813, -149, le_rfl, by decide, ?_⟩, by decide +kernel, by decide +kernel,
    by decide +kernel⟩ <;> rw [hu] <;> norm_cast

end Dysco.Weight

namespace Dysco.Layout
open BytePacker TimeBlock

/-- The bytes of a block are determined by the floats and symbols that the codec gives. -/
theorem writeBlock_determined {enc enc' : Buf Fl → Buf Nat → Option (Option (Buf Fl × Buf Nat))} {bits nMeta nSym : Nat}
    (hb : Supported bits) {metaB : Buf Fl} {sym : Buf Nat} (h : Writes enc nMeta nSym (2 ^ bits) metaB sym)
    (h' : Writes enc' nMeta nSym (2 ^ bits) metaB sym) {packed packed' : Mem 8} {unpacked unpacked' : Buf Nat}
    (hp : packed.len = blockSize nMeta nSym bits) (hp' : packed'.len = blockSize nMeta nSym bits)
    (hu : unpacked.len = nSym) (hu' : unpacked'.len = nSym) :
    ∃ d d', writeBlock enc bits nMeta nSym packed unpacked = .ok d ∧
      writeBlock enc' bits nMeta nSym packed' unpacked' = .ok d' ∧ d.len = blockSize nMeta nSym bits ∧ d'.len = d.len ∧
      ∀ j, j < d.len → d'.get j = d.get j := by
  -- a codec that does one or the other
  have hc : Writes (fun m s => if s.get 0 = 0 then enc m s else enc' m s) nMeta nSym (2 ^ bits) metaB sym := by
    refine ⟨h.metaLen, h.floats, h.symLen, h.below, fun m s hm hn hs => ?_⟩
    by_cases h0 : s.get 0 = 0
    · simp only [if_pos h0]
      exact h.same m s hm hn hs
    · simp only [if_neg h0]
      exact h'.same m s hm hn hs
  obtain ⟨blk, l0, g0, -⟩ := writeBlock_spec hb hc
  obtain ⟨b1, l1, g1, -⟩ := writeBlock_spec hb h
  obtain ⟨b2, l2, g2, -⟩ := writeBlock_spec hb h'
  have hz : ∀ (e : Buf Fl → Buf Nat → Option (Option (Buf Fl × Buf Nat))) x u,
      (∀ m, (fun (m : Buf Fl) (s : Buf Nat) => if s.get 0 = 0 then enc m s else enc' m s) m u = e m u) →
      writeBlock (fun m s => if s.get 0 = 0 then enc m s else enc' m s) bits nMeta nSym x u = writeBlock e bits nMeta nSym x u := by
    intro e x u hh
    have hx := hh (metaView nMeta x)
    unfold writeBlock
    split
    · rfl
    · rw [hx]
  obtain ⟨d, e1, k1, v1⟩ := g1 packed unpacked hp hu
  obtain ⟨d', e2, k2, v2⟩ := g2 packed' unpacked' hp' hu'
  obtain ⟨m1, f1, n1, w1⟩ := g1 packed ⟨nSym, fun _ => 0⟩ hp rfl
  obtain ⟨m2, f2, n2, w2⟩ := g2 packed' ⟨nSym, fun _ => 1⟩ hp' rfl
  obtain ⟨x1, o1, p1, q1⟩ := g0 packed ⟨nSym, fun _ => 0⟩ hp rfl
  obtain ⟨x2, o2, p2, q2⟩ := g0 packed' ⟨nSym, fun _ => 1⟩ hp' rfl
  rw [hz enc _ _ (fun _ => by simp), f1] at o1
  rw [hz enc' _ _ (fun _ => by simp), f2] at o2
  obtain rfl : m1 = x1 := by simpa using o1
  obtain rfl : m2 = x2 := by simpa using o2
  refine ⟨d, d', e1, e2, by rw [k1, l1], by rw [k1, k2, l1, l2], fun j hj => ?_⟩
  rw [k1, l1] at hj
  rw [v2 j (by rw [l2]; exact hj), ← w2 j (by rw [l2]; exact hj), q2 j (by rw [l0]; exact hj), ← q1 j (by rw [l0]; exact hj),
    w1 j (by rw [l1]; exact hj), v1 j (by rw [l1]; exact hj)]

/-- **C134** Weights that were compressed and read back are compressed to the same bytes, and are read back with the same
values. The largest weight is zero or a normal float. -/
theorem weights_recompressed {nPol nCh bits : Nat} (hb : Supported bits) (hp : 1 ≤ nPol) (hc : 0 < nCh)
    {rows : Block Fl} {W : Nat → Nat → Nat → ℚ} (hW : Weight.HoldsWeights nPol nCh rows W)
    (hF : Weight.FloatWeights rows.len nCh nPol W) {m : Nat → Nat → ℚ}
    (hm : ∀ r c, r < rows.len → c < nCh → Weight.IsMin nPol (W r c) (m r c))
    (hn : (∀ r c, r < rows.len → c < nCh → m r c = 0) ∨
      ∃ r c, r < rows.len ∧ c < nCh ∧ (2 : ℚ) ^ (-126 : ℤ) ≤ m r c)
    {packed packed' : Mem 8} {unpacked unpacked' out out' : Buf Nat}
    (hp1 : packed.len = blockSize Weight.metaDataFloatCount (Weight.symbolCount rows.len nCh) bits)
    (hp2 : packed'.len = blockSize Weight.metaDataFloatCount (Weight.symbolCount rows.len nCh) bits)
    (hu1 : unpacked.len = Weight.symbolCount rows.len nCh) (hu2 : unpacked'.len = Weight.symbolCount rows.len nCh)
    (ho1 : out.len = Weight.symbolCount rows.len nCh) (ho2 : out'.len = Weight.symbolCount rows.len nCh)
    (dflt dflt' : DataRow Fl) (dest dest' : Block Fl) :
    ∃ d x d' x', writeBlock (encWeight nPol nCh bits rows) bits Weight.metaDataFloatCount
        (Weight.symbolCount rows.len nCh) packed unpacked = .ok d ∧
      readBlock (decWeight nPol nCh bits) bits Weight.metaDataFloatCount
        (Weight.symbolCount rows.len nCh) rows.len dflt d out dest = .ok x ∧
      writeBlock (encWeight nPol nCh bits x) bits Weight.metaDataFloatCount
        (Weight.symbolCount x.len nCh) packed' unpacked' = .ok d' ∧
      readBlock (decWeight nPol nCh bits) bits Weight.metaDataFloatCount
        (Weight.symbolCount x.len nCh) x.len dflt' d' out' dest' = .ok x' ∧
      x.len = rows.len ∧ d'.len = d.len ∧ (∀ j, j < d.len → d'.get j = d.get j) ∧
      ∀ r i, r < rows.len → i < nCh * nPol → (x'.get r).vis.get i = (x.get r).vis.get i := by
  have hq : 2 ≤ 2 ^ bits := by
    have : 2 ^ 1 ≤ 2 ^ bits := Nat.pow_le_pow_right (by decide) (by unfold Supported at hb; omega)
    simpa using this
  have hq2 : 2 ^ bits ≤ 2 ^ 16 := Nat.pow_le_pow_right (by decide) (by unfold Supported at hb; omega)
  obtain ⟨M, sym, hM, hw, henc⟩ := weightWrites hb hp hW hF hm
  obtain ⟨hmf, hM0, hMr, hM2⟩ := Weight.float_min_max hF hm hM
  have hMn : (2 : ℚ) ^ (-126 : ℤ) ≤ M := by
    rcases hn with h | ⟨r, c, hr, hc', h⟩
    · rcases hM.2 with ⟨h1, r, c, hr, hc', e⟩ | ⟨rfl, -⟩
      · rw [h r c hr hc'] at e
        linarith
      · exact zpow_le_one_of_nonpos₀ (by norm_num) (by norm_num)
    · exact le_trans h (hM.1 r c hr hc')
  obtain ⟨blk, l1, g1, g2, g3⟩ := writeBlock_spec hb hw
  obtain ⟨d, e1, k1, v1⟩ := g1 packed unpacked hp1 hu1
  have hH := End.holds_of_writes hb hw hp1 hu1 e1
  obtain ⟨x, e2, lx, gx⟩ := readBlock_spec (weightReads (nR := rows.len) (nPol := nPol) (bits := bits) hc) hH.metaLen hH.symLen
    hH.below hH.size hH.floats hH.symbols dflt out ho1 dest
  -- the values that were read
  have hst : ∀ r c, ∃ y, r < rows.len → c < nCh →
      Weight.decodeSample Fl.r32 Fl.r64 (2 ^ bits) (.fin M) (sym.get (r * nCh + c)) = .fin y ∧ 0 ≤ y ∧ y ≤ M ∧
      Fl.Repr Fl.binary32 y ∧ Weight.encodeSample Fl.r32 Fl.r64 (2 ^ bits) (.fin M) (.fin y) = some (sym.get (r * nCh + c)) := by
    intro r c
    by_cases h : r < rows.len ∧ c < nCh
    · obtain ⟨y, h1⟩ := Weight.symbol_stable (2 ^ bits) hq hq2 hMn hMr hM2 (hw.below (r * nCh + c) (flat_lt h.1 h.2))
      exact ⟨y, fun _ _ => h1⟩
    · exact ⟨0, fun h1 h2 => absurd ⟨h1, h2⟩ h⟩
  choose y hy using hst
  have hxW : Weight.HoldsWeights nPol nCh x (fun r c _ => y r c) := by
    intro r hr
    rw [lx] at hr
    refine ⟨(gx r hr).1, fun c p hc' hp' => ?_⟩
    rw [(gx r hr).2 _ (flat_lt hc' hp'), flat_div hp']
    exact (hy r c hr hc').1
  have hxF : Weight.FloatWeights x.len nCh nPol (fun r c _ => y r c) := by
    intro r c p hr hc' _
    rw [lx] at hr
    obtain ⟨-, h0, h1, h2, -⟩ := hy r c hr hc'
    exact ⟨h0, lt_of_le_of_lt h1 hM2, h2⟩
  have hxm : ∀ r c, r < x.len → c < nCh → Weight.IsMin nPol ((fun r c (_ : Nat) => y r c) r c) (y r c) :=
    fun r c _ _ => ⟨⟨0, by omega, rfl⟩, fun _ _ => le_rfl⟩
  obtain ⟨M', sym', hM', hw', henc'⟩ := weightWrites hb hp hxW hxF hxm
  -- the same maximum
  have hMax : Weight.IsBlockMax x.len nCh y M := by
    rw [lx]
    refine ⟨fun r c hr hc' => (hy r c hr hc').2.2.1, ?_⟩
    have hval : ∀ r c, r < rows.len → c < nCh → (m r c = M → y r c = M) ∧ (m r c = 0 → y r c = 0) := by
      intro r c hr hc'
      obtain ⟨s, z, h1, -, h2, -, -, -, h3, h4⟩ := Weight.sample_core (2 ^ bits) hq hq2 (hmf r c hr hc').1 (hmf r c hr hc').2.1
        (hmf r c hr hc').2.2 hM0 hMr hM2
      rw [henc r c hr hc'] at h1
      obtain rfl := Option.some.inj h1
      rw [(hy r c hr hc').1] at h2
      obtain rfl : y r c = z := by simpa using h2
      exact ⟨fun e => (h3 e).trans e, h4⟩
    rcases hM.2 with ⟨h1, r, c, hr, hc', e⟩ | ⟨h1, h2⟩
    · exact Or.inl ⟨h1, r, c, hr, hc', (hval r c hr hc').1 e⟩
    · refine Or.inr ⟨h1, fun r c hr hc' => ?_⟩
      rw [(hval r c hr hc').2 (le_antisymm (h2 r c hr hc') (hmf r c hr hc').1)]
  obtain rfl : M' = M := Weight.IsBlockMax.unique hM' hMax
  -- the same symbols
  have hsym : ∀ j, j < Weight.symbolCount rows.len nCh → sym'.get j = sym.get j := by
    intro j hj
    have hj' : j < rows.len * nCh := hj
    have hdm := Nat.div_add_mod j nCh
    have hr : j / nCh < rows.len := (Nat.div_lt_iff_lt_mul hc).2 hj'
    have h1 := henc' (j / nCh) (j % nCh) (by rw [lx]; exact hr) (Nat.mod_lt _ hc)
    have h2 := (hy (j / nCh) (j % nCh) hr (Nat.mod_lt _ hc)).2.2.2.2
    rw [h2] at h1
    rw [Nat.mul_comm] at hdm
    rw [hdm] at h1
    exact (Option.some.inj h1).symm
  rw [lx] at hw'
  have hw2 : Writes (encWeight nPol nCh bits x) Weight.metaDataFloatCount (Weight.symbolCount rows.len nCh) (2 ^ bits)
      ⟨1, fun _ => .fin M'⟩ sym := by
    refine ⟨hw.metaLen, hw.floats, hw.symLen, hw.below, fun mb sb h1 h2 h3 => ?_⟩
    obtain ⟨a, b, c1, c2, c3, c4, c5⟩ := hw'.same mb sb h1 h2 h3
    exact ⟨a, b, c1, c2, c3, c4, fun j hj => (c5 j hj).trans (hsym j hj)⟩
  obtain ⟨d1, d', f1, f2, f3, f4, f5⟩ := writeBlock_determined hb hw hw2 hp1 hp2 hu1 hu2
  obtain rfl : d = d1 := by
    rw [e1] at f1
    simpa using f1
  have hH' := End.holds_of_writes hb hw2 hp2 hu2 f2
  obtain ⟨x', e3, -, gx'⟩ := readBlock_spec (weightReads (nR := rows.len) (nPol := nPol) (bits := bits) hc) hH'.metaLen hH'.symLen
    hH'.below hH'.size hH'.floats hH'.symbols dflt' out' ho2 dest'
  exact ⟨d, x, d', x', e1, e2, by rw [lx]; exact f2, by rw [lx]; exact e3, lx, f4, f5,
    fun r i hr hi => by rw [(gx' r hr).2 i hi, (gx r hr).2 i hi]⟩

/-- Three weights of two polarisations with two bits. -/
example (packed packed' : Mem 8) (hl : packed.len = 5) (hl' : packed'.len = 5) (dflt : DataRow Fl) (dest : Block Fl) :
    ∃ d x d' x', writeBlock (encWeight 2 1 2 ⟨3, fun r => ⟨0, 1, ⟨2, fun i => .fin ((r : ℚ) + i)⟩⟩⟩) 2 1 3 packed
        ⟨3, fun _ => 0⟩ = .ok d ∧
      readBlock (decWeight 2 1 2) 2 1 3 3 dflt d ⟨3, fun _ => 0⟩ dest = .ok x ∧
      writeBlock (encWeight 2 1 2 x) 2 1 (x.len * 1) packed' ⟨3, fun _ => 1⟩ = .ok d' ∧
      readBlock (decWeight 2 1 2) 2 1 (x.len * 1) x.len dflt d' ⟨3, fun _ => 0⟩ dest = .ok x' ∧
      x.len = 3 ∧ d'.len = d.len ∧ (∀ j, j < d.len → d'.get j = d.get j) ∧
      ∀ r i, r < 3 → i < 1 * 2 → (x'.get r).vis.get i = (x.get r).vis.get i :=
  weights_recompressed (nPol := 2) (nCh := 1) (bits := 2) (Or.inl rfl) (by decide) (by decide)
    (rows := ⟨3, fun r => ⟨0, 1, ⟨2, fun i => .fin ((r : ℚ) + i)⟩⟩⟩) (W := fun r _ p => (r : ℚ) + p) (m := fun r _ => r)
    (fun r _ => ⟨rfl, fun c p hc _ => by
      obtain rfl : c = 0 := by omega
      simp⟩)
    (fun r c p hr _ hp => by
      have hr : r < 3 := hr
      refine ⟨by positivity, ?_, ?_⟩
      · have : ((r + p : Nat) : ℚ) < 2 ^ (128 : ℤ) := lt_of_lt_of_le
          (b := ((2 ^ 8 : Nat) : ℚ)) (by exact_mod_cast (by omega)) (by norm_num)
        push_cast at this
        exact this
      · have := Fl.repr32_nat (n := r + p) (by omega)
        push_cast at this
        exact this)
    (fun r c _ _ => ⟨⟨0, by decide, by simp⟩, fun p _ => by simp⟩)
    (Or.inr ⟨1, 0, by decide, by decide, by
      rw [Nat.cast_one]
      exact zpow_le_one_of_nonpos₀ (by norm_num) (by norm_num)⟩) hl hl' rfl rfl rfl rfl dflt dflt dest dest

end Dysco.Layout
