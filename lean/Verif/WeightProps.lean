import Verif.WeightLemmas

/-!
# Properties C14 – C18: weights

Specification: a block is given by the weights `W row channel polarisation`. The codec keeps one number
per sample: `m row channel`, the smallest weight over the polarisations (`IsMin`). `M` is the largest of
these, or 1 if none is positive (`IsBlockMax`).
-/

namespace Dysco.Weight

/-- Weights are finite non-negative binary32 numbers. -/
def FloatWeights (nRows nCh nPol : Nat) (W : Nat → Nat → Nat → ℚ) : Prop :=
  ∀ r c p, r < nRows → c < nCh → p < nPol →
    0 ≤ W r c p ∧ W r c p < 2 ^ (128 : ℤ) ∧ Fl.Repr Fl.binary32 (W r c p)

/-- Second loop of the encoder for given minimum and maximum; `f` is the symbol of a sample. -/
theorem encode_loop {RF RD : ℚ → Fl} {nPol nCh q : Nat} (hp : 1 ≤ nPol) {rows : Block Fl}
    {W : Nat → Nat → Nat → ℚ} (hW : HoldsWeights nPol nCh rows W) {m : Nat → Nat → ℚ}
    (hm : ∀ r c, r < rows.len → c < nCh → IsMin nPol (W r c) (m r c))
    {mx : Fl} {f : Nat → Nat → Nat}
    (hf : ∀ r c, r < rows.len → c < nCh → encodeSample RF RD q mx (.fin (m r c)) = some (f r c))
    (sym : Buf Nat) (hsym : rows.len * nCh ≤ sym.len) :
    ∃ st, forRange rows.len (fun r (st : Buf Nat × Nat) => (rows.rd r).bind fun row =>
        forRange nCh (fun ch (st : Buf Nat × Nat) =>
          (minWeight nPol row.vis ch).bind fun w =>
          (encodeSample RF RD q mx w).bind fun s =>
          (st.1.wr st.2 s).map fun sb => (sb, st.2 + 1)) st) (sym, 0) = some st ∧
      st.1.len = sym.len ∧
      (∀ r c, r < rows.len → c < nCh → st.1.get (r * nCh + c) = f r c) ∧
      (∀ i, rows.len * nCh ≤ i → st.1.get i = sym.get i) := by
  obtain ⟨st, e, h1, h2, h3, h4⟩ := forRange_inv rows.len
    (fun r (st : Buf Nat × Nat) => (rows.rd r).bind fun row =>
        forRange nCh (fun ch (st : Buf Nat × Nat) =>
          (minWeight nPol row.vis ch).bind fun w =>
          (encodeSample RF RD q mx w).bind fun s =>
          (st.1.wr st.2 s).map fun sb => (sb, st.2 + 1)) st) (sym, 0)
    (fun i st => st.2 = i * nCh ∧ st.1.len = sym.len ∧
      (∀ r c, r < i → c < nCh → st.1.get (r * nCh + c) = f r c) ∧
      (∀ j, i * nCh ≤ j → st.1.get j = sym.get j))
    ⟨by simp, rfl, fun r c h => by omega, fun _ _ => rfl⟩
    (by
      rintro i st hi ⟨a1, a2, a3, a4⟩
      simp only [Buf.rd_some hi, Option.bind_some]
      obtain ⟨st', e', b1, b2, b3, b4⟩ := forRange_inv nCh
        (fun ch (st : Buf Nat × Nat) =>
          (minWeight nPol (rows.get i).vis ch).bind fun w =>
          (encodeSample RF RD q mx w).bind fun s =>
          (st.1.wr st.2 s).map fun sb => (sb, st.2 + 1)) st
        (fun j st' => st'.2 = i * nCh + j ∧ st'.1.len = sym.len ∧
          (∀ k, k < i * nCh → st'.1.get k = st.1.get k) ∧
          (∀ k, i * nCh ≤ k → st'.1.get k = if k < i * nCh + j then f i (k - i * nCh) else sym.get k))
        ⟨by rw [a1]; rfl, a2, fun _ _ => rfl, fun k hk => by
          rw [if_neg (by omega)]; exact a4 k hk⟩
        (by
          rintro j st' hj ⟨c1, c2, c3, c4⟩
          have hlt : st'.2 < st'.1.len := by
            rw [c1, c2]
            exact lt_of_lt_of_le (flat_lt hi hj) hsym
          simp only [minWeight_spec hp hW hi hj (hm i j hi hj), Option.bind_some, hf i j hi hj,
            Buf.wr_some hlt, Option.map_some]
          refine ⟨_, rfl, by simp only [c1]; omega, c2, ?_, ?_⟩
          · intro k hk
            simp only
            rw [if_neg (by omega)]
            exact c3 k hk
          · intro k hk
            simp only
            by_cases hkk : k = st'.2
            · rw [if_pos hkk, if_pos (by omega)]
              congr 1
              omega
            · rw [if_neg hkk, c4 k hk]
              by_cases h : k < i * nCh + j
              · rw [if_pos h, if_pos (by omega)]
              · rw [if_neg h, if_neg (by omega)])
      have e2 : i * nCh + nCh = (i + 1) * nCh := by rw [Nat.add_mul, Nat.one_mul]
      refine ⟨st', e', by rw [b1, e2], b2, ?_, ?_⟩
      · intro r c hr hc
        rcases Nat.lt_or_eq_of_le (Nat.le_of_lt_succ hr) with h | h
        · rw [b3 _ (flat_lt h hc), a3 r c h hc]
        · subst h
          rw [b4 _ (by omega), if_pos (by omega)]
          congr 1
          omega
      · intro j hj
        rw [b4 j (by omega), if_neg (by omega)])
  exact ⟨st, e, h2, h3, h4⟩

/-- Decoding one row: every polarisation of channel `c` gets the value of the symbol. -/
theorem decode_row {RF RD : ℚ → Fl} {nPol nCh q : Nat} {mx : Fl} (rows : Block Fl) (sym : Buf Nat)
    (blockRow : Nat) (hr : blockRow < rows.len) (hs : ∀ c, c < nCh → blockRow * nCh + c < sym.len) :
    ∃ rows', decode RF RD nPol nCh q mx rows sym blockRow = some rows' ∧ rows'.len = rows.len ∧
      (∀ j, j ≠ blockRow → rows'.get j = rows.get j) ∧
      (0 < nCh → (rows'.get blockRow).vis.len = nCh * nPol) ∧
      (∀ c p, c < nCh → p < nPol → (rows'.get blockRow).vis.get (c * nPol + p) =
        decodeSample RF RD q mx (sym.get (blockRow * nCh + c))) := by
  unfold decode
  rw [Buf.rd_some hr, Option.bind_some]
  obtain ⟨vis, e, h1, h2⟩ := forRange_inv nCh
    (fun ch (vis : Buf Fl) =>
      (sym.rd (blockRow * nCh + ch)).bind fun s =>
      forRange nPol (fun p vis => vis.wr (ch * nPol + p) (decodeSample RF RD q mx s))
        (vis.resize (nCh * nPol) (.fin 0))) (rows.get blockRow).vis
    (fun i vis => (0 < i → vis.len = nCh * nPol) ∧
      ∀ c p, c < i → p < nPol → vis.get (c * nPol + p) =
        decodeSample RF RD q mx (sym.get (blockRow * nCh + c)))
    ⟨fun h => by omega, fun c p h => by omega⟩
    (by
      rintro i vis hi ⟨a1, a2⟩
      simp only [Buf.rd_some (hs i hi), Option.bind_some]
      obtain ⟨vis', e', b1, b2, b3⟩ := forRange_inv nPol
        (fun p (vis : Buf Fl) =>
          vis.wr (i * nPol + p) (decodeSample RF RD q mx (sym.get (blockRow * nCh + i))))
        (vis.resize (nCh * nPol) (.fin 0))
        (fun j v => v.len = nCh * nPol ∧
          (∀ p, p < j → v.get (i * nPol + p) =
            decodeSample RF RD q mx (sym.get (blockRow * nCh + i))) ∧
          (∀ k, k < i * nPol → v.get k = (vis.resize (nCh * nPol) (.fin 0)).get k))
        ⟨rfl, fun p h => by omega, fun _ _ => rfl⟩
        (by
          rintro j v hj ⟨c1, c2, c3⟩
          have hlt : i * nPol + j < v.len := by rw [c1]; exact flat_lt hi hj
          refine ⟨_, Buf.wr_some hlt _, c1, ?_, ?_⟩
          · intro p hp
            simp only
            by_cases h : p = j
            · rw [if_pos (by omega)]
            · rw [if_neg (by omega)]
              exact c2 p (by omega)
          · intro k hk
            simp only
            rw [if_neg (by omega)]
            exact c3 k hk)
      refine ⟨vis', e', fun _ => b1, ?_⟩
      intro c p hc hp
      rcases Nat.lt_or_eq_of_le (Nat.le_of_lt_succ hc) with h | h
      · rw [b3 _ (flat_lt h hp)]
        simp only [Buf.resize]
        rw [a1 (by omega), if_pos (flat_lt (by omega) hp)]
        exact a2 c p h hp
      · rw [h]; exact b2 p hp)
  rw [e, Option.bind_some, Buf.wr_some hr]
  refine ⟨_, rfl, rfl, ?_, ?_, ?_⟩
  · intro j hj
    simp [hj]
  · intro h
    simpa using h1 h
  · intro c p hc hp
    simpa using h2 c p hc hp

/-- Minimum and maximum of a block of floats are floats. -/
theorem float_min_max {nPol nCh nRows : Nat} {W : Nat → Nat → Nat → ℚ}
    (hF : FloatWeights nRows nCh nPol W) {m : Nat → Nat → ℚ}
    (hm : ∀ r c, r < nRows → c < nCh → IsMin nPol (W r c) (m r c)) {M : ℚ}
    (hM : IsBlockMax nRows nCh m M) :
    (∀ r c, r < nRows → c < nCh → 0 ≤ m r c ∧ m r c ≤ M ∧ Fl.Repr Fl.binary32 (m r c)) ∧
      0 < M ∧ Fl.Repr Fl.binary32 M ∧ M < 2 ^ (128 : ℤ) := by
  have h1 : ∀ r c, r < nRows → c < nCh →
      0 ≤ m r c ∧ m r c < 2 ^ (128 : ℤ) ∧ Fl.Repr Fl.binary32 (m r c) := by
    intro r c hr hc
    obtain ⟨p, hp, e⟩ := (hm r c hr hc).1
    rw [← e]
    exact hF r c p hr hc hp
  refine ⟨fun r c hr hc => ⟨(h1 r c hr hc).1, hM.1 r c hr hc, (h1 r c hr hc).2.2⟩, ?_⟩
  rcases hM.2 with ⟨h0, r, c, hr, hc, e⟩ | ⟨e, _⟩
  · rw [← e]
    obtain ⟨a1, a2, a3⟩ := h1 r c hr hc
    rw [← e] at h0
    exact ⟨h0, a3, a2⟩
  · rw [e]
    refine ⟨by norm_num, ?_, by norm_num⟩
    exact_mod_cast Fl.repr32_nat (n := 1) (by norm_num)

/-- **C14** and **C15**: encoding a block of finite non-negative float weights succeeds, stores the
block maximum, produces only symbols below the quantisation count and touches no other symbol; decoding
any row gives, for every sample, one common value `y` for all polarisations, with `0 ≤ y ≤ M`, within half
a quantisation step of the smallest polarisation weight (up to float rounding, `M·2^-22 + 2^-149`), exact
for zero weights and for the largest weight. -/
theorem weight_round_trip {nPol nCh q : Nat} (hp : 1 ≤ nPol) (hq : 2 ≤ q) (hq2 : q ≤ 2 ^ 16)
    {rows : Block Fl} {W : Nat → Nat → Nat → ℚ} (hW : HoldsWeights nPol nCh rows W)
    (hF : FloatWeights rows.len nCh nPol W) {m : Nat → Nat → ℚ}
    (hm : ∀ r c, r < rows.len → c < nCh → IsMin nPol (W r c) (m r c))
    (metaB : Buf Fl) (hmeta : 1 ≤ metaB.len) (sym : Buf Nat) (hsym : rows.len * nCh ≤ sym.len) :
    ∃ metaB' sym' M, encode Fl.r32 Fl.r64 nPol nCh q rows metaB sym = some (metaB', sym') ∧
      IsBlockMax rows.len nCh m M ∧ metaB'.get 0 = .fin M ∧ metaB'.len = metaB.len ∧
      sym'.len = sym.len ∧
      (∀ r c, r < rows.len → c < nCh → sym'.get (r * nCh + c) < q) ∧
      (∀ i, rows.len * nCh ≤ i → sym'.get i = sym.get i) ∧
      ∀ (dest : Block Fl) (r : Nat), r < rows.len → r < dest.len →
        ∃ dest', decode Fl.r32 Fl.r64 nPol nCh q (metaB'.get 0) dest sym' r = some dest' ∧
          ∀ c, c < nCh → ∃ y : ℚ,
            (∀ p, p < nPol → (dest'.get r).vis.get (c * nPol + p) = .fin y) ∧
            0 ≤ y ∧ y ≤ M ∧
            |y - m r c| ≤ M / (2 * (q - 1)) + M * 2 ^ (-22 : ℤ) + 2 ^ (-149 : ℤ) ∧
            (m r c = M → y = m r c) ∧ (m r c = 0 → y = 0) := by
  obtain ⟨mx, M, e1, e2, hM⟩ := maxLoop_spec hp hW hm
  obtain ⟨hmf, hM0, hMr, hM2⟩ := float_min_max hF hm hM
  have hcore : ∀ r c, ∃ s, r < rows.len → c < nCh → ∃ y,
      encodeSample Fl.r32 Fl.r64 q (.fin M) (.fin (m r c)) = some s ∧ s < q ∧
      decodeSample Fl.r32 Fl.r64 q (.fin M) s = .fin y ∧ 0 ≤ y ∧ y ≤ M ∧
      |y - m r c| ≤ M / (2 * (q - 1)) + M * 2 ^ (-22 : ℤ) + 2 ^ (-149 : ℤ) ∧
      (m r c = M → y = m r c) ∧ (m r c = 0 → y = 0) := by
    intro r c
    by_cases h : r < rows.len ∧ c < nCh
    · obtain ⟨a1, a2, a3⟩ := hmf r c h.1 h.2
      obtain ⟨s, y, hs⟩ := sample_core q hq hq2 a1 a2 a3 hM0 hMr hM2
      exact ⟨s, fun _ _ => ⟨y, hs⟩⟩
    · exact ⟨0, fun h1 h2 => absurd ⟨h1, h2⟩ h⟩
  choose f hf using hcore
  obtain ⟨st, e3, h1, h2, h3⟩ := encode_loop (RF := Fl.r32) (RD := Fl.r64) (q := q) (mx := .fin M)
    (f := f) hp hW hm (fun r c hr hc => by obtain ⟨y, hy⟩ := hf r c hr hc; exact hy.1) sym hsym
  refine ⟨⟨metaB.len, fun j => if j = 0 then .fin M else metaB.get j⟩, st.1, M, ?_, hM, ?_, ?_, h1,
    ?_, h3, ?_⟩
  rotate_left
  · simp
  · rfl
  · intro r c hr hc
    rw [h2 r c hr hc]
    obtain ⟨y, hy⟩ := hf r c hr hc
    exact hy.2.1
  · intro dest r hr hd
    obtain ⟨dest', d1, _, _, _, d5⟩ := decode_row (RF := Fl.r32) (RD := Fl.r64) (nPol := nPol)
      (nCh := nCh) (q := q) (mx := .fin M) dest st.1 r hd
      (fun c hc => by rw [h1]; exact lt_of_lt_of_le (flat_lt hr hc) hsym)
    refine ⟨dest', d1, ?_⟩
    intro c hc
    obtain ⟨y, hy⟩ := hf r c hr hc
    refine ⟨y, ?_, hy.2.2.2⟩
    intro p hp'
    rw [d5 c p hc hp', h2 r c hr hc]
    exact hy.2.2.1
  · unfold encode
    rw [e1, Option.bind_some, e2, Buf.wr_some (by omega), Option.bind_some, e3]
    rfl

/-- **C16**: the decoded weight is one and the same function of the smallest polarisation weight and
the block maximum only — for all blocks and shapes; all polarisations are equal. -/
theorem one_weight_per_sample :
    ∃ g : Nat → ℚ → ℚ → ℚ, (∀ q M, 2 ≤ q → q ≤ 2 ^ 16 → 0 < M → M < 2 ^ (128 : ℤ) →
        Fl.Repr Fl.binary32 M → g q M 0 = 0) ∧
      ∀ {nPol nCh q : Nat}, 1 ≤ nPol → 2 ≤ q → q ≤ 2 ^ 16 →
      ∀ {rows : Block Fl} {W : Nat → Nat → Nat → ℚ}, HoldsWeights nPol nCh rows W →
      FloatWeights rows.len nCh nPol W → ∀ {m : Nat → Nat → ℚ} {M : ℚ},
      (∀ r c, r < rows.len → c < nCh → IsMin nPol (W r c) (m r c)) →
      IsBlockMax rows.len nCh m M →
      ∀ (metaB : Buf Fl) (sym : Buf Nat), 1 ≤ metaB.len → rows.len * nCh ≤ sym.len →
      ∃ metaB' sym', encode Fl.r32 Fl.r64 nPol nCh q rows metaB sym = some (metaB', sym') ∧
        ∀ (dest : Block Fl) (r : Nat), r < rows.len → r < dest.len →
        ∃ dest', decode Fl.r32 Fl.r64 nPol nCh q (metaB'.get 0) dest sym' r = some dest' ∧
          ∀ c p, c < nCh → p < nPol →
            (dest'.get r).vis.get (c * nPol + p) = .fin (g q M (m r c)) := by
  refine ⟨fun q M w => match (encodeSample Fl.r32 Fl.r64 q (.fin M) (.fin w)).map
      (decodeSample Fl.r32 Fl.r64 q (.fin M)) with
    | some (.fin y) => y
    | _ => 0, ?_, ?_⟩
  · intro q M hq hq2 hM hM2 hMr
    obtain ⟨s, y, h1, _, h3, _, _, _, _, h8⟩ := sample_core q hq hq2 (w := 0) (le_refl _) hM.le
      (Fl.Repr.zero _) hM hMr hM2
    simp only [h1, Option.map_some, h3, h8]
  · intro nPol nCh q hp hq hq2 rows W hW hF m M hm hM metaB sym hmeta hsym
    obtain ⟨mx, M', e1, e2, hM'⟩ := maxLoop_spec hp hW hm
    have hMM : M' = M := by
      have aux : ∀ {A B : ℚ}, IsBlockMax rows.len nCh m A → IsBlockMax rows.len nCh m B → A ≤ B := by
        intro A B hA hB
        rcases hA.2 with ⟨h0, r, c, hr, hc, e⟩ | ⟨e, hz⟩
        · rw [← e]; exact hB.1 r c hr hc
        · rcases hB.2 with ⟨h0, r, c, hr, hc, e'⟩ | ⟨e', _⟩
          · have := hz r c hr hc
            rw [e'] at this
            linarith
          · rw [e, e']
      exact le_antisymm (aux hM' hM) (aux hM hM')
    subst hMM
    obtain ⟨hmf, hM0, hMr, hM2⟩ := float_min_max hF hm hM
    have hcore : ∀ r c, ∃ s, r < rows.len → c < nCh → ∃ y,
        encodeSample Fl.r32 Fl.r64 q (.fin M') (.fin (m r c)) = some s ∧
        decodeSample Fl.r32 Fl.r64 q (.fin M') s = .fin y := by
      intro r c
      by_cases h : r < rows.len ∧ c < nCh
      · obtain ⟨a1, a2, a3⟩ := hmf r c h.1 h.2
        obtain ⟨s, y, hs⟩ := sample_core q hq hq2 a1 a2 a3 hM0 hMr hM2
        exact ⟨s, fun _ _ => ⟨y, hs.1, hs.2.2.1⟩⟩
      · exact ⟨0, fun h1 h2 => absurd ⟨h1, h2⟩ h⟩
    choose f hf using hcore
    obtain ⟨st, e3, h1, h2, h3⟩ := encode_loop (RF := Fl.r32) (RD := Fl.r64) (q := q) (mx := .fin M')
      (f := f) hp hW hm (fun r c hr hc => by obtain ⟨y, hy⟩ := hf r c hr hc; exact hy.1) sym hsym
    refine ⟨⟨metaB.len, fun j => if j = 0 then .fin M' else metaB.get j⟩, st.1, ?_, ?_⟩
    · unfold encode
      rw [e1, Option.bind_some, e2, Buf.wr_some (by omega), Option.bind_some, e3]
      rfl
    · intro dest r hr hd
      obtain ⟨dest', d1, _, _, _, d5⟩ := decode_row (RF := Fl.r32) (RD := Fl.r64) (nPol := nPol)
        (nCh := nCh) (q := q) (mx := .fin M') dest st.1 r hd
        (fun c hc => by rw [h1]; exact lt_of_lt_of_le (flat_lt hr hc) hsym)
      refine ⟨dest', d1, ?_⟩
      intro c p hc hp'
      obtain ⟨y, hy1, hy2⟩ := hf r c hr hc
      rw [d5 c p hc hp', h2 r c hr hc]
      simp only [hy1, Option.map_some, hy2]

/-! ## C17 -/

/-- **C17**: with no polarisations the minimum loop runs out of the buffer: every non-empty block is
undefined. -/
theorem no_polarisations_undefined (RF RD : ℚ → Fl) (nCh q : Nat) (hc : 0 < nCh) (rows : Block Fl)
    (hr : 0 < rows.len) (metaB : Buf Fl) (sym : Buf Nat) :
    encode RF RD 0 nCh q rows metaB sym = none := by
  have hinner : ∀ (n : Nat) (vis : Buf Fl) (mx : Fl), 0 < n → forRange n (fun ch mx =>
      (minWeight 0 vis ch).map fun w => if Fl.lt mx w then w else mx) mx = none := by
    intro n vis mx hn
    induction n with
    | zero => omega
    | succ n ih =>
      rcases Nat.eq_zero_or_pos n with h | h
      · subst h; simp [forRange, minWeight]
      · rw [forRange, ih h]; rfl
  have houter : ∀ n, 0 < n → forRange n (fun r mx => (rows.rd r).bind fun row =>
      forRange nCh (fun ch mx => (minWeight 0 row.vis ch).map fun w => if Fl.lt mx w then w else mx)
      mx) (.fin 0) = none := by
    intro n hn
    induction n with
    | zero => omega
    | succ n ih =>
      rcases Nat.eq_zero_or_pos n with h | h
      · subst h
        simp only [forRange, Option.bind_some, Buf.rd_some hr, hinner nCh _ _ hc]
      · rw [forRange, ih h]; rfl
  simp only [encode, maxLoop, houter rows.len hr, Option.bind_none]

theorem forRange_none {σ : Type} {n : Nat} {body : Nat → σ → Option σ} {s : σ} {k : Nat} (hk : k < n)
    (h : ∀ t, body k t = none) : forRange n body s = none := by
  induction n with
  | zero => omega
  | succ n ih =>
    rw [forRange]
    rcases Nat.lt_or_eq_of_le (Nat.le_of_lt_succ hk) with h1 | h1
    · rw [ih h1]; rfl
    · subst h1
      cases forRange k body s with
      | none => rfl
      | some t => exact h t

/-- **C17**: a block that contains a sample whose symbol conversion is out of range is undefined,
whatever the rest of the block is. -/
theorem bad_sample_undefined (RF RD : ℚ → Fl) (nPol nCh q : Nat) (rows : Block Fl) (metaB : Buf Fl)
    (sym : Buf Nat) (r c : Nat) (hr : r < rows.len) (hc : c < nCh) (w : Fl)
    (hw : minWeight nPol (rows.get r).vis c = some w)
    (hbad : ∀ mx, maxLoop nPol nCh rows = some mx →
      encodeSample RF RD q (nonZeroMax mx) w = none) :
    encode RF RD nPol nCh q rows metaB sym = none := by
  unfold encode
  cases hmx : maxLoop nPol nCh rows with
  | none => rfl
  | some mx =>
    rw [Option.bind_some]
    cases metaB.wr 0 (nonZeroMax mx) with
    | none => rfl
    | some mb =>
      rw [Option.bind_some]
      have hb := hbad mx hmx
      rw [forRange_none (k := r) hr]
      · rfl
      · intro st
        rw [Buf.rd_some hr, Option.bind_some]
        apply forRange_none (k := c) hc
        intro st'
        rw [hw, Option.bind_some, hb]
        rfl

/-- **C17**: NaN as the first polarisation of a sample stays the minimum (no comparison with NaN is
true), and converting it to a symbol is undefined: so such a block is undefined. -/
theorem nan_undefined (nPol nCh q : Nat) (hp : 1 ≤ nPol) (rows : Block Fl) (metaB : Buf Fl)
    (sym : Buf Nat) (r c : Nat) (hr : r < rows.len) (hc : c < nCh)
    (hlen : (rows.get r).vis.len = nCh * nPol)
    (hnan : (rows.get r).vis.get (c * nPol) = .nan) (RF RD : ℚ → Fl) :
    encode RF RD nPol nCh q rows metaB sym = none := by
  have hw : minWeight nPol (rows.get r).vis c = some .nan := by
    have hlt : ∀ p, p < nPol → c * nPol + p < (rows.get r).vis.len := by
      intro p hp'
      rw [hlen]
      exact flat_lt hc hp'
    have h0 := Buf.rd_some (hlt 0 (by omega))
    rw [Nat.add_zero, hnan] at h0
    unfold minWeight
    rw [if_neg (by omega), h0, Option.bind_some]
    obtain ⟨t, e, ht⟩ := forRange_inv (nPol - 1)
      (fun k w => ((rows.get r).vis.rd (c * nPol + (k + 1))).map fun v => if Fl.lt v w then v else w)
      .nan (fun _ w => w = .nan) rfl
      (by
        rintro i w hi rfl
        simp only [Buf.rd_some (hlt (i + 1) (by omega)), Option.map_some]
        refine ⟨_, rfl, ?_⟩
        cases (rows.get r).vis.get (c * nPol + (i + 1)) <;> simp [Fl.lt])
    rw [e, ht]
  apply bad_sample_undefined RF RD nPol nCh q rows metaB sym r c hr hc .nan hw
  intro mx _
  unfold encodeSample
  have : Fl.mul RD .nan (Fl.div RD (.fin ((q - 1 : Nat) : ℚ)) (nonZeroMax mx)) = .nan := by
    cases Fl.div RD (.fin ((q - 1 : Nat) : ℚ)) (nonZeroMax mx) <;> rfl
  rw [this]
  rfl

/-- **C17**: a negative symbol value is undefined: a sample whose scaled weight is at most `-1/2` (here
in exact arithmetic) makes the whole block undefined. -/
theorem negative_undefined {nPol nCh q : Nat} (hp : 1 ≤ nPol)
    {rows : Block Fl} {W : Nat → Nat → Nat → ℚ} (hW : HoldsWeights nPol nCh rows W)
    {m : Nat → Nat → ℚ} {M : ℚ}
    (hm : ∀ r c, r < rows.len → c < nCh → IsMin nPol (W r c) (m r c))
    (hM : IsBlockMax rows.len nCh m M) (r c : Nat) (hr : r < rows.len) (hc : c < nCh)
    (hneg : m r c * (((q - 1 : Nat) : ℚ) / M) ≤ -1 / 2) (metaB : Buf Fl) (sym : Buf Nat) :
    encode Fl.exact Fl.exact nPol nCh q rows metaB sym = none := by
  obtain ⟨mx', M', e1, e2, hM'⟩ := maxLoop_spec hp hW hm
  have hMM : M' = M := by
    have aux : ∀ {A B : ℚ}, IsBlockMax rows.len nCh m A → IsBlockMax rows.len nCh m B → A ≤ B := by
      intro A B hA hB
      rcases hA.2 with ⟨h0, r, c, hr, hc, e⟩ | ⟨e, hz⟩
      · rw [← e]; exact hB.1 r c hr hc
      · rcases hB.2 with ⟨h0, r, c, hr, hc, e'⟩ | ⟨e', _⟩
        · have := hz r c hr hc
          rw [e'] at this
          linarith
        · rw [e, e']
    exact le_antisymm (aux hM' hM) (aux hM hM')
  subst hMM
  apply bad_sample_undefined _ _ nPol nCh q rows metaB sym r c hr hc _
    (minWeight_spec hp hW hr hc (hm r c hr hc))
  intro mx hmx
  obtain rfl : mx' = mx := by rw [e1] at hmx; simpa using hmx
  rw [e2]
  have hMpos : 0 < M' := by
    rcases hM.2 with ⟨h, _⟩ | ⟨h, _⟩
    · exact h
    · rw [h]; norm_num
  unfold encodeSample
  simp only [Fl.div, if_neg hMpos.ne', Fl.exact, Fl.mul, Fl.cast, roundf, toUnsigned]
  rw [if_neg (by linarith : ¬ (0 : ℚ) ≤ m r c * (((q - 1 : Nat) : ℚ) / M'))]
  have h1 : (1 : ℤ) ≤ ⌊-(m r c * (((q - 1 : Nat) : ℚ) / M')) + 1 / 2⌋ := by
    rw [Int.le_floor]
    push_cast
    linarith
  have h2 : (1 : ℚ) ≤ (⌊-(m r c * (((q - 1 : Nat) : ℚ) / M')) + 1 / 2⌋ : ℚ) := by exact_mod_cast h1
  apply if_neg
  intro h
  linarith [h.1]

/-! ## C18 -/

/-- **C18**: the vector encoder (exact arithmetic): the scale is the maximum, symbols are at most
`q - 1`, decoding is within half a step and exact for the maximum. -/
theorem vec_round_trip (q : Nat) (hq : 2 ≤ q) (hq2 : q ≤ 2 ^ 32) (input : Buf Fl) (v : Nat → ℚ)
    (hlen : 1 ≤ input.len) (hv : ∀ i, i < input.len → input.get i = .fin (v i) ∧ 0 ≤ v i)
    (hpos : ∃ i, i < input.len ∧ 0 < v i) (dest : Buf Nat) (hd : dest.len = input.len)
    (out : Buf Fl) (ho : out.len = input.len) :
    ∃ M dest' out', vecEncode Fl.exact Fl.exact q dest input = some (.fin M, dest') ∧
      (∃ i, i < input.len ∧ v i = M) ∧ (∀ i, i < input.len → v i ≤ M) ∧
      dest'.len = input.len ∧
      (∀ i, i < input.len → dest'.get i ≤ q - 1) ∧
      vecDecode Fl.exact q out (.fin M) dest' = some out' ∧
      (∀ i, i < input.len → ∃ y, out'.get i = .fin y ∧ |y - v i| ≤ M / (q - 1) / 2 ∧
        (v i = M → y = v i)) := by
  have hk : 0 < q - 1 := by omega
  have hkq : (0 : ℚ) < ((q - 1 : Nat) : ℚ) := by exact_mod_cast hk
  have hqk : (q : ℚ) - 1 = ((q - 1 : Nat) : ℚ) := by rw [Nat.cast_sub (by omega)]; norm_num
  -- maximum
  obtain ⟨t, e1, M, rfl, ⟨i0, hi0, hMi⟩, hmax⟩ := forRange_inv (input.len - 1)
    (fun k s => (input.rd (k + 1)).map fun v => if Fl.lt s v then v else s) (.fin (v 0))
    (fun j s => ∃ x, s = .fin x ∧ (∃ i, i < j + 1 ∧ v i = x) ∧ ∀ i, i < j + 1 → v i ≤ x)
    ⟨v 0, rfl, ⟨0, by omega, rfl⟩, fun i hi => by
      have : i = 0 := by omega
      rw [this]⟩
    (by
      rintro j s hj ⟨x, rfl, ⟨i, hi, hx⟩, hx2⟩
      simp only [Buf.rd_some (show j + 1 < input.len by omega), Option.map_some,
        (hv (j + 1) (by omega)).1]
      by_cases h : x < v (j + 1)
      · refine ⟨.fin (v (j + 1)), by simp [Fl.lt, h], v (j + 1), rfl, ⟨j + 1, by omega, rfl⟩, ?_⟩
        intro i' hi'
        rcases Nat.lt_or_eq_of_le (Nat.le_of_lt_succ hi') with h' | h'
        · exact le_trans (hx2 i' h') h.le
        · rw [h']
      · refine ⟨.fin x, by simp [Fl.lt, h], x, rfl, ⟨i, by omega, hx⟩, ?_⟩
        intro i' hi'
        rcases Nat.lt_or_eq_of_le (Nat.le_of_lt_succ hi') with h' | h'
        · exact hx2 i' h'
        · rw [h']; exact not_lt.mp h)
  have hMax : ∀ i, i < input.len → v i ≤ M := fun i hi => hmax i (by omega)
  have hMpos : 0 < M := by
    obtain ⟨i, hi, h⟩ := hpos
    exact lt_of_lt_of_le h (hMax i hi)
  -- symbols
  have hsym : ∀ i, ∃ s : Nat, i < input.len →
      toUnsigned (roundf (Fl.cast Fl.exact (Fl.mul Fl.exact
        (Fl.div Fl.exact (.fin ((q - 1 : Nat) : ℚ)) (.fin M)) (.fin (v i))))) = some s ∧
      s ≤ q - 1 ∧ |(s : ℚ) - ((q - 1 : Nat) : ℚ) / M * v i| ≤ 1 / 2 ∧ (v i = M → s = q - 1) := by
    intro i
    by_cases hi : i < input.len
    · have h0 : 0 ≤ ((q - 1 : Nat) : ℚ) / M * v i :=
        mul_nonneg (by positivity) (hv i hi).2
      have h1 : ((q - 1 : Nat) : ℚ) / M * v i ≤ ((q - 1 : Nat) : ℚ) := by
        rw [div_mul_eq_mul_div, div_le_iff₀ hMpos]
        exact mul_le_mul_of_nonneg_left (hMax i hi) hkq.le
      obtain ⟨s, a1, a2, a3, a4, _⟩ := toUnsigned_roundf h0 h1 (by omega)
      refine ⟨s, fun _ => ⟨?_, a2, a3, ?_⟩⟩
      · simpa only [Fl.div, if_neg hMpos.ne', Fl.exact, Fl.mul, Fl.cast] using a1
      · intro h
        apply a4
        rw [h]
        field_simp
    · exact ⟨0, fun h => absurd h hi⟩
  choose f hf using hsym
  obtain ⟨dest', e2, d1, d2⟩ := forRange_inv input.len
    (fun i (d : Buf Nat) => (input.rd i).bind fun v =>
      (toUnsigned (roundf (Fl.cast Fl.exact
        (Fl.mul Fl.exact (Fl.div Fl.exact (.fin ((q - 1 : Nat) : ℚ)) (.fin M)) v)))).bind fun s =>
        d.wr i s) dest
    (fun j d => d.len = input.len ∧ ∀ i, i < j → d.get i = f i)
    ⟨hd, fun i hi => by omega⟩
    (by
      rintro j d hj ⟨a1, a2⟩
      simp only [Buf.rd_some hj, Option.bind_some, (hv j hj).1, (hf j hj).1]
      refine ⟨_, Buf.wr_some (by omega) _, a1, ?_⟩
      intro i hi
      simp only
      by_cases h : i = j
      · rw [if_pos h, h]
      · rw [if_neg h]; exact a2 i (by omega))
  obtain ⟨out', e3, o1, o2⟩ := forRange_inv dest'.len
    (fun i (d : Buf Fl) => (dest'.rd i).bind fun s =>
      d.wr i (Fl.mul Fl.exact (.fin s) (Fl.div Fl.exact (.fin M) (.fin ((q - 1 : Nat) : ℚ))))) out
    (fun j d => d.len = input.len ∧
      ∀ i, i < j → d.get i = .fin ((f i : ℚ) * (M / ((q - 1 : Nat) : ℚ))))
    ⟨ho, fun i hi => by omega⟩
    (by
      rintro j d hj ⟨a1, a2⟩
      simp only [Buf.rd_some hj, Option.bind_some]
      refine ⟨_, Buf.wr_some (by omega) _, a1, ?_⟩
      intro i hi
      simp only
      by_cases h : i = j
      · subst h
        rw [if_pos rfl, d2 i (by omega)]
        simp only [Fl.div, if_neg hkq.ne', Fl.exact, Fl.mul]
      · rw [if_neg h]; exact a2 i (by omega))
  refine ⟨M, dest', out', ?_, ⟨i0, by omega, hMi⟩, hMax, d1, ?_, e3, ?_⟩
  · unfold vecEncode
    rw [Buf.rd_some (by omega), Option.bind_some, (hv 0 (by omega)).1, e1, Option.bind_some, e2]
    rfl
  · intro i hi
    rw [d2 i hi]
    exact (hf i hi).2.1
  · intro i hi
    obtain ⟨_, _, h3, h4⟩ := hf i hi
    refine ⟨_, o2 i (by omega), ?_, ?_⟩
    · rw [hqk]
      have hMk : 0 < M / ((q - 1 : Nat) : ℚ) := by positivity
      have e : (f i : ℚ) * (M / ((q - 1 : Nat) : ℚ)) - v i =
          ((f i : ℚ) - ((q - 1 : Nat) : ℚ) / M * v i) * (M / ((q - 1 : Nat) : ℚ)) := by
        field_simp
      rw [e, abs_mul, abs_of_pos hMk]
      have := mul_le_mul_of_nonneg_right h3 hMk.le
      linarith
    · intro h
      rw [h4 h, h]
      field_simp

/-- **C18**: for an all-zero vector the result is undefined, for any rounding: `(q-1)/0` is infinite
and infinity times zero is NaN, which is converted to an unsigned integer. -/
theorem vec_all_zero_undefined (RF R : ℚ → Fl) (q : Nat) (hq : 2 ≤ q) (input : Buf Fl)
    (hlen : 1 ≤ input.len) (hz : ∀ i, i < input.len → input.get i = .fin 0) (dest : Buf Nat) :
    vecEncode RF R q dest input = none := by
  obtain ⟨t, e1, rfl⟩ := forRange_inv (input.len - 1)
    (fun k s => (input.rd (k + 1)).map fun v => if Fl.lt s v then v else s) (.fin 0)
    (fun _ s => s = .fin 0) rfl
    (by
      rintro j s hj rfl
      simp only [Buf.rd_some (show j + 1 < input.len by omega), Option.map_some,
        hz (j + 1) (by omega)]
      exact ⟨_, rfl, by simp [Fl.lt]⟩)
  unfold vecEncode
  rw [Buf.rd_some (by omega), Option.bind_some, hz 0 (by omega), e1, Option.bind_some]
  rw [forRange_none (k := 0) (by omega)]
  · rfl
  · intro d
    have hne : ((q - 1 : Nat) : ℚ) ≠ 0 := by
      have : q - 1 ≠ 0 := by omega
      exact_mod_cast this
    rw [Buf.rd_some (by omega), Option.bind_some, hz 0 (by omega)]
    have : Fl.div R (.fin ((q - 1 : Nat) : ℚ)) (.fin 0) = .inf (decide (((q - 1 : Nat) : ℚ) < 0)) := by
      simp [Fl.div, hne]
    rw [this]
    have : Fl.mul R (.inf (decide (((q - 1 : Nat) : ℚ) < 0))) (.fin 0) = .nan := by
      simp [Fl.mul]
    rw [this]
    rfl

/-! ## Non-vacuity -/

/-- A block of one row, one channel, two polarisations with weights 3 and 2. -/
def sampleRows : Block Fl := ⟨1, fun _ => ⟨0, 1, ⟨2, fun i => if i = 0 then .fin 3 else .fin 2⟩⟩⟩

example : HoldsWeights 2 1 sampleRows (fun _ _ p => if p = 0 then 3 else 2) ∧
    FloatWeights sampleRows.len 1 2 (fun _ _ p => if p = 0 then 3 else 2) ∧
    IsMin 2 (fun p => if p = 0 then 3 else 2) 2 ∧ IsBlockMax sampleRows.len 1 (fun _ _ => 2) 2 := by
  refine ⟨?_, ?_, ?_, ?_⟩
  · intro r _
    refine ⟨rfl, ?_⟩
    intro c p hc hp
    have : c = 0 := by omega
    subst this
    have hp2 : p = 0 ∨ p = 1 := by omega
    rcases hp2 with h | h <;> subst h <;> rfl
  · intro r c p _ _ _
    by_cases h : p = 0
    · subst h
      refine ⟨by norm_num, by norm_num, ?_⟩
      exact_mod_cast Fl.repr32_nat (n := 3) (by norm_num)
    · simp only [h, if_false]
      refine ⟨by norm_num, by norm_num, ?_⟩
      exact_mod_cast Fl.repr32_nat (n := 2) (by norm_num)
  · refine ⟨⟨1, by norm_num, rfl⟩, ?_⟩
    intro p _
    by_cases h : p = 0 <;> norm_num [h]
  · refine ⟨fun _ _ _ _ => le_refl _, Or.inl ⟨by norm_num, 0, 0, ?_, by norm_num, rfl⟩⟩
    exact Nat.lt_succ_self 0

/-- A block that meets the hypothesis of `negative_undefined`. -/
example : ∃ (m : Nat → Nat → ℚ) (M : ℚ), IsBlockMax 1 2 m M ∧
    m 0 1 * (((4 - 1 : Nat) : ℚ) / M) ≤ -1 / 2 := by
  refine ⟨fun _ c => if c = 0 then 1 else -1, 1, ⟨?_, Or.inl ⟨by norm_num, 0, 0, by norm_num, by norm_num, rfl⟩⟩, by norm_num⟩
  intro r c _ _
  by_cases h : c = 0 <;> simp [h]

end Dysco.Weight
