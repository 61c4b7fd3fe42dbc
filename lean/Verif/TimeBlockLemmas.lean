import Verif.TimeBlockModel
import Verif.LoopLemmas

/-! # Helper lemmas for the time block encoders -/

namespace Dysco

/-- The block has `nR` rows of `n` visibilities with the contents `D` and the antennas `A`. -/
structure Holds (nR n : Nat) (A : Nat → Nat × Nat) (D : Nat → Nat → Cx) (data : Block Cx) : Prop where
  rows : data.len = nR
  len : ∀ r, r < nR → (data.get r).vis.len = n
  ant : ∀ r, r < nR → ((data.get r).antenna1, (data.get r).antenna2) = A r
  vis : ∀ r i, r < nR → i < n → (data.get r).vis.get i = D r i

namespace TimeBlock

variable {nR n : Nat} {A : Nat → Nat × Nat} {D : Nat → Nat → Cx} {data : Block Cx}

theorem rdVis_some (h : Holds nR n A D data) {r i : Nat} (hr : r < nR) (hi : i < n) :
    rdVis data r i = some (D r i) := by
  unfold rdVis
  rw [Buf.rd_some (by rw [h.rows]; exact hr), Option.bind_some,
    Buf.rd_some (by rw [h.len r hr]; exact hi), h.vis r i hr hi]

theorem updVis_some (h : Holds nR n A D data) {r i : Nat} (hr : r < nR) (hi : i < n) (f : Cx → Cx) :
    ∃ data', updVis data r i f = some data' ∧
      Holds nR n A (fun r' i' => if r' = r ∧ i' = i then f (D r i) else D r' i') data' := by
  have h1 : r < data.len := by rw [h.rows]; exact hr
  have h2 : i < (data.get r).vis.len := by rw [h.len r hr]; exact hi
  unfold updVis
  rw [Buf.rd_some h1, Option.bind_some, Buf.rd_some h2, Option.bind_some, Buf.wr_some h2,
    Option.bind_some, Buf.wr_some h1]
  refine ⟨_, rfl, h.rows, ?_, ?_, ?_⟩
  · intro r' hr'
    simp only
    split
    · next e => subst e; exact h.len _ hr
    · exact h.len _ hr'
  · intro r' hr'
    simp only
    split
    · next e => subst e; exact h.ant _ hr
    · exact h.ant _ hr'
  · intro r' i' hr' hi'
    simp only
    by_cases e : r' = r
    · subst e
      simp only [if_true, true_and]
      by_cases e2 : i' = i
      · rw [if_pos e2, if_pos e2, h.vis _ _ hr hi]
      · rw [if_neg e2, if_neg e2, h.vis _ _ hr hi']
    · simp only [e, if_false, false_and]
      exact h.vis _ _ hr' hi'

/-- Running maximum. -/
def maxFold (v : Nat → Cx) : Nat → Fl
  | 0 => .fin 0
  | k + 1 => maxStep (maxFold v k) (absMax (v k))

theorem maxFold_congr {v w : Nat → Cx} : ∀ {k : Nat}, (∀ i, i < k → v i = w i) →
    maxFold v k = maxFold w k
  | 0, _ => rfl
  | k + 1, h => by
    rw [maxFold, maxFold, maxFold_congr (k := k) (fun i hi => h i (by omega)), h k (by omega)]

/-- A maximum loop computes the running maximum. -/
theorem forRange_max (k : Nat) (rd : Nat → Option Cx) (v : Nat → Cx)
    (h : ∀ i, i < k → rd i = some (v i)) :
    forRange k (fun i mx => (rd i).map fun v => maxStep mx (absMax v)) (.fin 0) =
      some (maxFold v k) := by
  obtain ⟨t, e, ht⟩ := forRange_inv k (fun i mx => (rd i).map fun v => maxStep mx (absMax v)) (.fin 0)
    (fun i mx => mx = maxFold v i) rfl
    (by
      rintro i mx hi rfl
      simp only [h i hi, Option.map_some]
      exact ⟨_, rfl, rfl⟩)
  rw [e, ht]

/-- A loop that updates the visibilities `(rr k, ii k)`, all different, once each. -/
theorem forRange_upd (m : Nat) (rr ii : Nat → Nat) (f : Cx → Cx) (h : Holds nR n A D data)
    (hr : ∀ k, k < m → rr k < nR) (hi : ∀ k, k < m → ii k < n)
    (hinj : ∀ k k', k < m → k' < m → rr k = rr k' → ii k = ii k' → k = k') :
    ∃ D' data', forRange m (fun k data => updVis data (rr k) (ii k) f) data = some data' ∧
      Holds nR n A D' data' ∧
      (∀ k, k < m → D' (rr k) (ii k) = f (D (rr k) (ii k))) ∧
      (∀ r i, (∀ k, k < m → ¬ (rr k = r ∧ ii k = i)) → D' r i = D r i) := by
  obtain ⟨t, e, D', h1, h2, h3⟩ := forRange_inv m (fun k data => updVis data (rr k) (ii k) f) data
    (fun j t => ∃ D', Holds nR n A D' t ∧
      (∀ k, k < j → D' (rr k) (ii k) = f (D (rr k) (ii k))) ∧
      (∀ r i, (∀ k, k < j → ¬ (rr k = r ∧ ii k = i)) → D' r i = D r i))
    ⟨D, h, fun k hk => by omega, fun _ _ _ => rfl⟩
    (by
      rintro j t hj ⟨D', h1, h2, h3⟩
      obtain ⟨t', e, h4⟩ := updVis_some h1 (hr j hj) (hi j hj) f
      refine ⟨t', e, _, h4, ?_, ?_⟩
      · intro k hk
        by_cases e : rr k = rr j ∧ ii k = ii j
        · have := hinj k j (by omega) hj e.1 e.2
          subst this
          rw [if_pos ⟨rfl, rfl⟩, h3]
          intro k' hk' hc
          have := hinj k' k (by omega) hj hc.1 hc.2
          omega
        · rw [if_neg e]
          apply h2
          have : k ≠ j := fun e2 => e (by rw [e2]; exact ⟨rfl, rfl⟩)
          omega
      · intro r i hn
        rw [if_neg (fun hc => hn j (by omega) ⟨hc.1.symm, hc.2.symm⟩)]
        exact h3 r i (fun k hk => hn k (by omega)))
  exact ⟨D', t, e, h1, h2, h3⟩

/-! ## Quantisation -/

/-- Symbols written by the quantisation loop, given their values `T`. -/
theorem quantise_spec {RF : ℚ → Fl} {enc : Fl → Nat → Option Nat} {dith : Nat → Nat} {T : Nat → Nat}
    (h : Holds nR n A D data) (sym : Buf Nat) (hs : nR * n * 2 ≤ sym.len)
    (h0 : ∀ r i, r < nR → i < n →
      enc (Fl.cast RF (D r i).re) (dith ((r * n + i) * 2)) = some (T ((r * n + i) * 2)) ∧
      enc (Fl.cast RF (D r i).im) (dith ((r * n + i) * 2 + 1)) = some (T ((r * n + i) * 2 + 1))) :
    quantise RF enc dith n data sym =
      some ⟨sym.len, fun j => if j < nR * n * 2 then T j else sym.get j⟩ := by
  obtain ⟨st, e, h1, h2, h3⟩ := forRange_inv data.len
    (fun r st => (data.rd r).bind fun row =>
      (forRange n (fun i st => (row.vis.rd i).bind fun v => quantiseVis RF enc dith i v st)
        st).map fun st => { st with ptr := st.ptr + n * 2 }) ⟨sym, 0, 0⟩
    (fun r st => st.ptr = r * n * 2 ∧ st.drawn = r * n * 2 ∧
      st.sym = ⟨sym.len, fun j => if j < r * n * 2 then T j else sym.get j⟩)
    ⟨by simp, by simp, by simp⟩
    (by
      rintro r st hr ⟨a1, a2, a3⟩
      have hr' : r < nR := by rw [← h.rows]; exact hr
      simp only [Buf.rd_some hr, Option.bind_some]
      obtain ⟨st', e', b1, b2, b3⟩ := forRange_inv n
        (fun i st => ((data.get r).vis.rd i).bind fun v => quantiseVis RF enc dith i v st) st
        (fun i st => st.ptr = r * n * 2 ∧ st.drawn = (r * n + i) * 2 ∧
          st.sym = ⟨sym.len, fun j => if j < (r * n + i) * 2 then T j else sym.get j⟩)
        ⟨a1, a2, a3⟩
        (by
          rintro i st' hi ⟨c1, c2, c3⟩
          have hin : (r * n + i) * 2 + 1 < sym.len := by
            have := flat_lt hr' hi
            omega
          simp only [Buf.rd_some (show i < (data.get r).vis.len by rw [h.len r hr']; exact hi),
            Option.bind_some, h.vis r i hr' hi, quantiseVis, c1, c2, c3, (h0 r i hr' hi).1,
            (h0 r i hr' hi).2]
          rw [Buf.wr_some (show r * n * 2 + i * 2 < _ from by simp only; omega), Option.bind_some,
            Buf.wr_some (show r * n * 2 + (i * 2 + 1) < _ from by simp only; omega)]
          refine ⟨_, rfl, rfl, by simp only; omega, ?_⟩
          simp only [Buf.mk.injEq, true_and]
          funext j
          by_cases e1 : j = r * n * 2 + (i * 2 + 1)
          · rw [if_pos e1, if_pos (by omega), e1]
            congr 1
            omega
          · rw [if_neg e1]
            by_cases e2 : j = r * n * 2 + i * 2
            · rw [if_pos e2, if_pos (by omega), e2]
              congr 1
              omega
            · rw [if_neg e2]
              by_cases e3 : j < (r * n + i) * 2
              · rw [if_pos e3, if_pos (by omega)]
              · rw [if_neg e3, if_neg (by omega)])
      rw [e']
      have e4 : (r + 1) * n = r * n + n := by rw [Nat.add_mul, Nat.one_mul]
      refine ⟨_, rfl, ?_, ?_, ?_⟩
      · simp only [b1, e4]; omega
      · simp only [b2, e4]
      · simp only [b3, e4])
  unfold quantise
  rw [e, Option.map_some, h3, h.rows]

/-- Total quantiser: it is defined for every value and dither value, and gives symbols below `q`. -/
def Total (enc : Fl → Nat → Option Nat) (q : Nat) : Prop := ∀ v d, ∃ s, enc v d = some s ∧ s < q

theorem flat_div {n r i : Nat} (hi : i < n) : (r * n + i) / n = r := by
  have hn : 0 < n := by omega
  rw [Nat.mul_comm, Nat.mul_add_div hn, Nat.div_eq_of_lt hi]
  omega

theorem flat_mod {n r i : Nat} (hi : i < n) : (r * n + i) % n = i := by
  rw [Nat.mul_comm, Nat.mul_add_mod, Nat.mod_eq_of_lt hi]

/-- What the quantisation loop writes. -/
theorem quantise_total {RF : ℚ → Fl} {enc : Fl → Nat → Option Nat} {q : Nat} (hq : Total enc q)
    {dith : Nat → Nat} (h : Holds nR n A D data) (sym : Buf Nat) (hs : nR * n * 2 ≤ sym.len) :
    ∃ sym', quantise RF enc dith n data sym = some sym' ∧ sym'.len = sym.len ∧
      (∀ j, j < nR * n * 2 → sym'.get j < q) ∧
      (∀ j, nR * n * 2 ≤ j → sym'.get j = sym.get j) ∧
      (∀ r i, r < nR → i < n →
        enc (Fl.cast RF (D r i).re) (dith ((r * n + i) * 2)) = some (sym'.get ((r * n + i) * 2)) ∧
        enc (Fl.cast RF (D r i).im) (dith ((r * n + i) * 2 + 1)) =
          some (sym'.get ((r * n + i) * 2 + 1))) := by
  choose E hE using hq
  let T : Nat → Nat := fun j =>
    if j % 2 = 0 then E (Fl.cast RF (D (j / 2 / n) (j / 2 % n)).re) (dith j)
    else E (Fl.cast RF (D (j / 2 / n) (j / 2 % n)).im) (dith j)
  have hT : ∀ r i, r < nR → i < n →
      enc (Fl.cast RF (D r i).re) (dith ((r * n + i) * 2)) = some (T ((r * n + i) * 2)) ∧
      enc (Fl.cast RF (D r i).im) (dith ((r * n + i) * 2 + 1)) = some (T ((r * n + i) * 2 + 1)) := by
    intro r i hr hi
    constructor
    · rw [(hE _ _).1]
      have e1 : (r * n + i) * 2 % 2 = 0 := by omega
      have e2 : (r * n + i) * 2 / 2 = r * n + i := by omega
      simp only [T]
      rw [if_pos e1, e2, flat_div hi, flat_mod hi]
    · rw [(hE _ _).1]
      have e1 : ¬ ((r * n + i) * 2 + 1) % 2 = 0 := by omega
      have e2 : ((r * n + i) * 2 + 1) / 2 = r * n + i := by omega
      simp only [T]
      rw [if_neg e1, e2, flat_div hi, flat_mod hi]
  refine ⟨_, quantise_spec h sym hs hT, rfl, ?_, ?_, ?_⟩
  · intro j hj
    simp only [if_pos hj, T]
    split
    · exact (hE _ _).2
    · exact (hE _ _).2
  · intro j hj
    simp only
    rw [if_neg (by omega)]
  · intro r i hr hi
    have := flat_lt hr hi
    simp only
    rw [if_pos (by omega), if_pos (by omega)]
    exact hT r i hr hi

/-! ## Decoding -/

/-- What the decoding loop does with one row. -/
theorem decodeRow_spec {RF RD : ℚ → Fl} {dec : Nat → Option Fl} {factor : Nat → Option Fl}
    (rows : Block Cx) (sym : Buf Nat) (blockRow a1 a2 : Nat) (hr : blockRow < rows.len)
    (hs : (blockRow * n + n) * 2 ≤ sym.len) (F : Nat → Fl) (hF : ∀ i, i < n → factor i = some (F i))
    (L : Nat → Fl) (hL : ∀ j, blockRow * n * 2 ≤ j → j < (blockRow * n + n) * 2 →
      dec (sym.get j) = some (L j)) :
    ∃ rows', decodeRow RF RD dec n factor rows sym blockRow a1 a2 = some rows' ∧
      rows'.len = rows.len ∧ (∀ j, j ≠ blockRow → rows'.get j = rows.get j) ∧
      (rows'.get blockRow).antenna1 = a1 ∧ (rows'.get blockRow).antenna2 = a2 ∧
      (rows'.get blockRow).vis.len = n ∧
      ∀ i, i < n → (rows'.get blockRow).vis.get i =
        ⟨Fl.cast RF (Fl.mul RD (L ((blockRow * n + i) * 2)) (F i)),
         Fl.cast RF (Fl.mul RD (L ((blockRow * n + i) * 2 + 1)) (F i))⟩ := by
  unfold decodeRow
  rw [Buf.rd_some hr, Option.bind_some]
  obtain ⟨vis, e, h1, h2⟩ := forRange_inv n
    (fun i (vis : Buf Cx) =>
      (factor i).bind fun f =>
      (sym.rd (blockRow * (n * 2) + 2 * i)).bind fun s =>
      (dec s).bind fun l =>
      (sym.rd (blockRow * (n * 2) + (2 * i + 1))).bind fun s' =>
      (dec s').bind fun l' =>
      vis.wr i ⟨Fl.cast RF (Fl.mul RD l f), Fl.cast RF (Fl.mul RD l' f)⟩)
    ((rows.get blockRow).vis.resize n ⟨.fin 0, .fin 0⟩)
    (fun k vis => vis.len = n ∧ ∀ i, i < k → vis.get i =
        ⟨Fl.cast RF (Fl.mul RD (L ((blockRow * n + i) * 2)) (F i)),
         Fl.cast RF (Fl.mul RD (L ((blockRow * n + i) * 2 + 1)) (F i))⟩)
    ⟨rfl, fun i hi => by omega⟩
    (by
      rintro k vis hk ⟨a1, a2⟩
      have e1 : blockRow * (n * 2) + 2 * k = (blockRow * n + k) * 2 := by
        rw [← Nat.mul_assoc]; omega
      have e2 : blockRow * (n * 2) + (2 * k + 1) = (blockRow * n + k) * 2 + 1 := by
        rw [← Nat.mul_assoc]; omega
      simp only [hF k hk, Option.bind_some, e1, e2,
        Buf.rd_some (show (blockRow * n + k) * 2 < sym.len by omega),
        Buf.rd_some (show (blockRow * n + k) * 2 + 1 < sym.len by omega),
        hL ((blockRow * n + k) * 2) (by omega) (by omega),
        hL ((blockRow * n + k) * 2 + 1) (by omega) (by omega)]
      refine ⟨_, Buf.wr_some (by omega) _, a1, ?_⟩
      intro i hi
      simp only
      by_cases e : i = k
      · rw [if_pos e, e]
      · rw [if_neg e]; exact a2 i (by omega))
  rw [e, Option.bind_some, Buf.wr_some hr]
  refine ⟨_, rfl, rfl, ?_, ?_, ?_, ?_, ?_⟩
  · intro j hj; simp [hj]
  · simp
  · simp
  · simpa using h1
  · intro i hi
    simpa using h2 i hi

end TimeBlock

/-! ## Row normalisation -/

namespace Row
open TimeBlock

variable {nR n : Nat} {A : Nat → Nat × Nat} {D : Nat → Nat → Cx} {data : Block Cx}

theorem normalize_spec {RF RD : ℚ → Fl} {maxLevel : Fl} (h : Holds nR n A D data) (metaB : Buf Fl)
    (hm : nR ≤ metaB.len) :
    ∃ D' data' metaB', normalize RF RD n maxLevel data metaB = some (data', metaB') ∧
      Holds nR n A D' data' ∧
      (∀ r i, r < nR → i < n → D' r i = (D r i).scale RD (rowFactor RD maxLevel (maxFold (D r) n))) ∧
      metaB'.len = metaB.len ∧
      (∀ r, r < nR → metaB'.get r = Fl.cast RF (Fl.div RD (maxFold (D r) n) maxLevel)) ∧
      (∀ j, nR ≤ j → metaB'.get j = metaB.get j) := by
  obtain ⟨st, e, D', h1, h2, h3, h4, h5, h6⟩ := forRange_inv data.len
    (fun r (st : Block Cx × Buf Fl) =>
      (st.1.rd r).bind fun row =>
      (rowMax n row.vis).bind fun mx =>
      (scaleRow RD n st.1 r (rowFactor RD maxLevel mx)).bind fun data =>
      (st.2.wr r (Fl.cast RF (Fl.div RD mx maxLevel))).map fun metaB => (data, metaB)) (data, metaB)
    (fun k st => ∃ D', Holds nR n A D' st.1 ∧
      (∀ r i, r < k → i < n →
        D' r i = (D r i).scale RD (rowFactor RD maxLevel (maxFold (D r) n))) ∧
      (∀ r i, k ≤ r → D' r i = D r i) ∧ st.2.len = metaB.len ∧
      (∀ r, r < k → st.2.get r = Fl.cast RF (Fl.div RD (maxFold (D r) n) maxLevel)) ∧
      (∀ j, k ≤ j → st.2.get j = metaB.get j))
    ⟨D, h, fun r i hr => by omega, fun _ _ _ => rfl, rfl, fun r hr => by omega, fun _ _ => rfl⟩
    (by
      rintro k ⟨d, mb⟩ hk ⟨D', a1, a2, a3, a4, a5, a6⟩
      simp only at a1 a4 a5 a6
      have hk' : k < nR := by rw [← h.rows]; exact hk
      have hmx : rowMax n (d.get k).vis = some (maxFold (D k) n) := by
        unfold rowMax
        rw [forRange_max n _ (D' k)]
        · congr 1
          exact maxFold_congr fun i _ => a3 k i (Nat.le_refl k)
        · intro i hi
          rw [Buf.rd_some (by rw [a1.len k hk']; exact hi), a1.vis k i hk' hi]
      obtain ⟨D2, d2, e2, b1, b2, b3⟩ := forRange_upd n (fun _ => k) (fun i => i)
        (fun v => v.scale RD (rowFactor RD maxLevel (maxFold (D k) n))) a1 (fun _ _ => hk')
        (fun _ hi => hi) (fun _ _ _ _ _ e => e)
      simp only [Buf.rd_some (show k < d.len by rw [a1.rows]; exact hk'), Option.bind_some, hmx,
        scaleRow, e2, Buf.wr_some (show k < mb.len by omega), Option.map_some]
      refine ⟨_, rfl, D2, b1, ?_, ?_, a4, ?_, ?_⟩
      · intro r i hr hi
        by_cases e : r = k
        · subst e
          rw [b2 i hi, a3 r i (Nat.le_refl r)]
        · rw [b3 r i (fun j _ hc => e hc.1.symm)]
          exact a2 r i (by omega) hi
      · intro r i hr
        rw [b3 r i (fun j _ hc => by omega)]
        exact a3 r i (by omega)
      · intro r hr
        simp only
        by_cases e : r = k
        · rw [if_pos e, e]
        · rw [if_neg e]; exact a5 r (by omega)
      · intro j hj
        simp only
        rw [if_neg (by omega)]
        exact a6 j (by omega))
  rw [h.rows] at h2 h5 h6
  exact ⟨D', st.1, st.2, e, h1, h2, h4, h5, h6⟩

end Row

/-! ## RF normalisation -/

namespace RF
open TimeBlock

variable {nR nPol nCh : Nat} {A : Nat → Nat × Nat} {D : Nat → Nat → Cx} {data : Block Cx}

/-- Largest component of row `r`, polarisation `p`. -/
def pMax (nPol nCh : Nat) (D : Nat → Nat → Cx) (r p : Nat) : Fl :=
  maxFold (fun ch => D r (ch * nPol + p)) nCh

theorem maximizeRows_spec {RF RD : ℚ → Fl} {maxLevel : Fl}
    (h : Holds nR (nPol * nCh) A D data) (metaB : Buf Fl)
    (hm : nPol * nCh + nR * nPol ≤ metaB.len) :
    ∃ D' data' metaB', maximizeRows RF RD nPol nCh maxLevel (data, metaB) = some (data', metaB') ∧
      Holds nR (nPol * nCh) A D' data' ∧
      (∀ r c p, r < nR → c < nCh → p < nPol → D' r (c * nPol + p) =
        (D r (c * nPol + p)).scale RD (Row.rowFactor RD maxLevel (pMax nPol nCh D r p))) ∧
      metaB'.len = metaB.len ∧
      (∀ r p, r < nR → p < nPol → metaB'.get (nPol * nCh + (r * nPol + p)) =
        Fl.cast RF (rowMeta RD maxLevel (pMax nPol nCh D r p))) ∧
      (∀ j, (j < nPol * nCh ∨ nPol * nCh + nR * nPol ≤ j) → metaB'.get j = metaB.get j) := by
  have hlt : ∀ c p, c < nCh → p < nPol → c * nPol + p < nPol * nCh := by
    intro c p hc hp
    rw [Nat.mul_comm nPol nCh]
    exact flat_lt hc hp
  obtain ⟨st, e, D', h1, h2, h3, h4, h5, h6⟩ := forRange_inv data.len
    (fun r st =>
      forRange nPol (fun p (st : Block Cx × Buf Fl) =>
        (polMax nPol nCh st.1 r p).bind fun mx =>
        (forRange nCh (fun ch data => updVis data r (ch * nPol + p) fun v =>
          v.scale RD (Row.rowFactor RD maxLevel mx)) st.1).bind fun data =>
        (st.2.wr (nPol * nCh + (r * nPol + p)) (Fl.cast RF (rowMeta RD maxLevel mx))).map
          fun metaB => (data, metaB)) st) (data, metaB)
    (fun k st => ∃ D', Holds nR (nPol * nCh) A D' st.1 ∧
      (∀ r c p, r < k → c < nCh → p < nPol → D' r (c * nPol + p) =
        (D r (c * nPol + p)).scale RD (Row.rowFactor RD maxLevel (pMax nPol nCh D r p))) ∧
      (∀ r i, k ≤ r → D' r i = D r i) ∧ st.2.len = metaB.len ∧
      (∀ r p, r < k → p < nPol → st.2.get (nPol * nCh + (r * nPol + p)) =
        Fl.cast RF (rowMeta RD maxLevel (pMax nPol nCh D r p))) ∧
      (∀ j, (j < nPol * nCh ∨ nPol * nCh + k * nPol ≤ j) → st.2.get j = metaB.get j))
    ⟨D, h, fun r c p hr => by omega, fun _ _ _ => rfl, rfl, fun r p hr => by omega, fun _ _ => rfl⟩
    (by
      rintro k st hk ⟨D', a1, a2, a3, a4, a5, a6⟩
      have hk' : k < nR := by rw [← h.rows]; exact hk
      obtain ⟨st', e', D2, b1, b2, b3, b4, b5, b6, b7⟩ := forRange_inv nPol
        (fun p (st : Block Cx × Buf Fl) =>
          (polMax nPol nCh st.1 k p).bind fun mx =>
          (forRange nCh (fun ch data => updVis data k (ch * nPol + p) fun v =>
            v.scale RD (Row.rowFactor RD maxLevel mx)) st.1).bind fun data =>
          (st.2.wr (nPol * nCh + (k * nPol + p)) (Fl.cast RF (rowMeta RD maxLevel mx))).map
            fun metaB => (data, metaB)) st
        (fun m st' => ∃ D2, Holds nR (nPol * nCh) A D2 st'.1 ∧
          (∀ c p, c < nCh → p < m → D2 k (c * nPol + p) =
            (D k (c * nPol + p)).scale RD (Row.rowFactor RD maxLevel (pMax nPol nCh D k p))) ∧
          (∀ c p, c < nCh → m ≤ p → p < nPol → D2 k (c * nPol + p) = D k (c * nPol + p)) ∧
          (∀ r i, r ≠ k → D2 r i = D' r i) ∧ st'.2.len = metaB.len ∧
          (∀ p, p < m → st'.2.get (nPol * nCh + (k * nPol + p)) =
            Fl.cast RF (rowMeta RD maxLevel (pMax nPol nCh D k p))) ∧
          (∀ j, (∀ p, p < m → j ≠ nPol * nCh + (k * nPol + p)) → st'.2.get j = st.2.get j))
        ⟨D', a1, fun c p _ hp => by omega, fun c p _ _ _ => a3 k _ (Nat.le_refl k), fun _ _ _ => rfl,
          a4, fun p hp => by omega, fun _ _ => rfl⟩
        (by
          rintro m ⟨d, mb⟩ hmp ⟨D2, c1, c2, c3, c4, c5, c6, c7⟩
          simp only at c1 c5 c6 c7
          have hmx : polMax nPol nCh d k m = some (pMax nPol nCh D k m) := by
            unfold polMax pMax
            rw [forRange_max nCh _ (fun ch => D2 k (ch * nPol + m))]
            · congr 1
              exact maxFold_congr fun c hc => c3 c m hc (Nat.le_refl m) hmp
            · intro c hc
              exact rdVis_some c1 hk' (hlt c m hc hmp)
          obtain ⟨D3, d3, e3, f1, f2, f3⟩ := forRange_upd nCh (fun _ => k) (fun c => c * nPol + m)
            (fun v => v.scale RD (Row.rowFactor RD maxLevel (pMax nPol nCh D k m))) c1
            (fun _ _ => hk') (fun c hc => hlt c m hc hmp)
            (fun c c' _ _ _ e => (flat_inj hmp hmp e).1)
          have hw : nPol * nCh + (k * nPol + m) < mb.len := by
            have := flat_lt hk' hmp
            omega
          simp only [hmx, Option.bind_some, e3, Buf.wr_some hw, Option.map_some]
          refine ⟨_, rfl, D3, f1, ?_, ?_, ?_, c5, ?_, ?_⟩
          · intro c p hc hp
            by_cases e : p = m
            · subst e
              rw [f2 c hc, c3 c p hc (Nat.le_refl p) hmp]
            · rw [f3 k _ (fun c' _ hcc => e (flat_inj hmp (by omega) hcc.2).2.symm)]
              exact c2 c p hc (by omega)
          · intro c p hc hp hp2
            rw [f3 k _ (fun c' _ hcc => by
              have := (flat_inj hmp hp2 hcc.2).2
              omega)]
            exact c3 c p hc (by omega) hp2
          · intro r i hr
            rw [f3 r i (fun _ _ hcc => hr hcc.1.symm)]
            exact c4 r i hr
          · intro p hp
            simp only
            by_cases e : p = m
            · rw [e, if_pos rfl]
            · rw [if_neg (by omega)]
              exact c6 p (by omega)
          · intro j hj
            simp only
            rw [if_neg (hj m (by omega))]
            exact c7 j (fun p hp => hj p (by omega)))
      refine ⟨st', e', D2, b1, ?_, ?_, b5, ?_, ?_⟩
      · intro r c p hr hc hp
        by_cases e : r = k
        · subst e; exact b2 c p hc hp
        · rw [b4 r _ e]; exact a2 r c p (by omega) hc hp
      · intro r i hr
        rw [b4 r i (by omega)]
        exact a3 r i (by omega)
      · intro r p hr hp
        by_cases e : r = k
        · subst e; exact b6 p hp
        · rw [b7]
          · exact a5 r p (by omega) hp
          · intro p' hp' hc
            exact e (flat_inj hp hp' (by omega)).1
      · intro j hj
        have e4 : (k + 1) * nPol = k * nPol + nPol := by rw [Nat.add_mul, Nat.one_mul]
        rw [b7 j (fun p hp => by omega)]
        exact a6 j (by omega))
  rw [h.rows] at h2 h5 h6
  exact ⟨D', st.1, st.2, e, h1, h2, h4, h5, h6⟩

theorem maximizeChannels_spec {RF RD : ℚ → Fl} {maxLevel : Fl}
    (h : Holds nR (nPol * nCh) A D data) (metaB : Buf Fl) (hm : nPol * nCh ≤ metaB.len) :
    ∃ D' data' metaB', maximizeChannels RF RD nPol nCh maxLevel (data, metaB) =
        some (data', metaB') ∧
      Holds nR (nPol * nCh) A D' data' ∧
      (∀ r i, r < nR → i < nPol * nCh → D' r i =
        (D r i).scale RD (chanFactor RD maxLevel (maxFold (fun r => D r i) nR))) ∧
      metaB'.len = metaB.len ∧
      (∀ i, i < nPol * nCh → metaB'.get i =
        Fl.cast RF (Fl.div RD (.fin 1) (chanFactor RD maxLevel (maxFold (fun r => D r i) nR)))) ∧
      (∀ j, nPol * nCh ≤ j → metaB'.get j = metaB.get j) := by
  obtain ⟨st, e, D', h1, h2, h3, h4, h5, h6⟩ := forRange_inv (nPol * nCh)
    (fun i (st : Block Cx × Buf Fl) =>
      (chanMax st.1 i).bind fun mx =>
      (st.2.wr i (Fl.cast RF (Fl.div RD (.fin 1) (chanFactor RD maxLevel mx)))).bind fun metaB =>
      (forRange st.1.len (fun r data => updVis data r i fun v =>
        v.scale RD (chanFactor RD maxLevel mx)) st.1).map fun data => (data, metaB)) (data, metaB)
    (fun k st => ∃ D', Holds nR (nPol * nCh) A D' st.1 ∧
      (∀ r i, r < nR → i < k → D' r i =
        (D r i).scale RD (chanFactor RD maxLevel (maxFold (fun r => D r i) nR))) ∧
      (∀ r i, k ≤ i → D' r i = D r i) ∧ st.2.len = metaB.len ∧
      (∀ i, i < k → st.2.get i =
        Fl.cast RF (Fl.div RD (.fin 1) (chanFactor RD maxLevel (maxFold (fun r => D r i) nR)))) ∧
      (∀ j, k ≤ j → st.2.get j = metaB.get j))
    ⟨D, h, fun r i _ hi => by omega, fun _ _ _ => rfl, rfl, fun i hi => by omega, fun _ _ => rfl⟩
    (by
      rintro k ⟨d, mb⟩ hk ⟨D', a1, a2, a3, a4, a5, a6⟩
      simp only at a1 a4 a5 a6
      have hmx : chanMax d k = some (maxFold (fun r => D r k) nR) := by
        unfold chanMax
        rw [a1.rows, forRange_max nR _ (fun r => D' r k)]
        · congr 1
          exact maxFold_congr fun r _ => a3 r k (Nat.le_refl k)
        · intro r hr
          exact rdVis_some a1 hr hk
      obtain ⟨D2, d2, e2, b1, b2, b3⟩ := forRange_upd nR (fun r => r) (fun _ => k)
        (fun v => v.scale RD (chanFactor RD maxLevel (maxFold (fun r => D r k) nR))) a1
        (fun _ hr => hr) (fun _ _ => hk) (fun _ _ _ _ e _ => e)
      simp only [hmx, Option.bind_some, Buf.wr_some (show k < mb.len by omega), a1.rows, e2,
        Option.map_some]
      refine ⟨_, rfl, D2, b1, ?_, ?_, a4, ?_, ?_⟩
      · intro r i hr hi
        by_cases e : i = k
        · subst e
          rw [b2 r hr, a3 r i (Nat.le_refl i)]
        · rw [b3 r i (fun _ _ hc => e hc.2.symm)]
          exact a2 r i hr (by omega)
      · intro r i hi
        rw [b3 r i (fun _ _ hc => by omega)]
        exact a3 r i (by omega)
      · intro i hi
        simp only
        by_cases e : i = k
        · rw [if_pos e, e]
        · rw [if_neg e]; exact a5 i (by omega)
      · intro j hj
        simp only
        rw [if_neg (by omega)]
        exact a6 j (by omega))
  exact ⟨D', st.1, st.2, e, h1, h2, h4, h5, h6⟩

end RF

end Dysco
