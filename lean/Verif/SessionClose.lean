import Verif.SessionTable

/-!
# What an update stores

The errors of rows that are overwritten in a session on an existing table.

The examples are at the end of `SessionLife.lean`.
-/

namespace Dysco.Session
open Col Multi StMan End BytePacker Layout World TimeBlock
open Prepare (Lib encoder)
open Tools (Distribution)

/-! ## Storing a block once -/

section
variable {sq : Fl → Fl} {e : Stochastic.Encoder} {antOf : Nat → Nat × Nat} {rows b : Nat} {col : Column}

/-- The rows `r'` that a stored block of data decodes to: they are decoded from what the encoder wrote. -/
theorem data_stored (hbits : Supported col.bits) (hk : col.isData = true)
    (hsize : col.blockSize = Layout.blockSize (col.metaCount rows col.antennaCount) (col.symCount rows) col.bits)
    {bd l : Nat → ℚ} {L : ℚ} (hT : Dysco.Table e bd l L) (hq : e.quantCount = 2 ^ col.bits) (hr0 : 0 < rows)
    (hA : col.norm = .af → 0 < col.nCh ∧ AF.AntennasBelow rows col.antennaCount fun j => antOf (b * rows + j))
    {r r' : Rows (DataRow Cx)} (hf : FitData col rows antOf b r)
    (hr : Recoded true (dataCodec sq e antOf rows col) col rows b r r') :
    ∃ dith fuel metaB sym,
      Writes (encData col.norm sq e col.nPol col.nCh col.antennaCount dith fuel (toBlock ⟨.fin 0, .fin 0⟩ r))
        (dataMetaCount col.norm rows col.nPol col.nCh col.antennaCount) (symbolCount rows col.nPol col.nCh)
        (2 ^ col.bits) metaB sym ∧
      ∀ j, j < rows → ∃ x, r'.get j = some x ∧ x.vis.len = col.nPol * col.nCh ∧ ∀ i, i < col.nPol * col.nCh →
        x.vis.get i = valueOf col.norm e col.nPol col.nCh col.antennaCount (fun j => antOf (b * rows + j)) metaB sym j i := by
  have e2 : col.metaCount rows col.antennaCount = dataMetaCount col.norm rows col.nPol col.nCh col.antennaCount := by
    simp [Column.metaCount, hk]
  have e3 : col.symCount rows = symbolCount rows col.nPol col.nCh := by simp [Column.symCount, hk]
  have hH : Dysco.Holds rows (col.nPol * col.nCh) (fun j => antOf (b * rows + j))
      (fun j => ((toBlock ⟨.fin 0, .fin 0⟩ r).get j).vis.get) (toBlock ⟨.fin 0, .fin 0⟩ r) := by
    refine ⟨hf.len, fun j hj => ?_, fun j hj => ?_, fun _ _ _ _ => rfl⟩
    · obtain ⟨x, x1, x2, x3⟩ := hf.row j hj
      rw [toBlock_get _ x1, x2]
    · obtain ⟨x, x1, x2, x3⟩ := hf.row j hj
      rw [toBlock_get _ x1, x3]
  obtain ⟨d, ⟨dith, fuel, packed, unpacked, hp, hu, hok⟩, hdec⟩ := hr
  rcases dataWrites col.norm sq hT hH hr0 hA dith fuel with ⟨hn, h1⟩ | ⟨metaB, sym, hwr⟩
  · exfalso
    have hp' : 4 * dataMetaCount col.norm rows col.nPol col.nCh col.antennaCount ≤ packed.len := by
      rw [hp, hsize, e2]
      unfold Layout.blockSize
      omega
    simp only [dataCodec] at hok
    rw [e2, e3] at hok
    rw [e3] at hu
    unfold writeBlock at hok
    rw [if_neg (by omega), h1 _ _ rfl (fun j hj => if_neg (not_lt.mpr hj)) hu] at hok
    simp at hok
  · rw [hq] at hwr
    refine ⟨dith, fuel, metaB, sym, hwr, fun j hj => ?_⟩
    have hread : Reads ((dataCodec sq e antOf rows col).dec b) (col.metaCount rows col.antennaCount) (col.symCount rows)
        (2 ^ col.bits) rows (col.nPol * col.nCh)
        (valueOf col.norm e col.nPol col.nCh col.antennaCount fun j => antOf (b * rows + j)) := by
      rw [e2, e3, ← hq]
      exact dataReads col.norm hT fun hn => (hA hn).2
    have hsets : SetsAnts ((dataCodec sq e antOf rows col).dec b) (col.metaCount rows col.antennaCount) (col.symCount rows)
        (2 ^ col.bits) rows (fun j => antOf (b * rows + j)) := by
      rw [e2, e3, ← hq]
      exact dataSetsAnts hT fun hn => (hA hn).2
    have hh : BlockHolds col.bits (col.metaCount rows col.antennaCount) (col.symCount rows) metaB sym d := by
      refine holds_of_writes (enc := (dataCodec sq e antOf rows col).enc dith fuel (toBlock ⟨.fin 0, .fin 0⟩ r)) hbits ?_
        (hp.trans hsize) hu hok
      rw [e2, e3]
      exact hwr
    obtain ⟨x, x1, x2, x3, -⟩ := ((decodes_iff (ants := true) hbits hsize hread (fun _ => hsets) hh r').mp hdec).row j hj
    exact ⟨x, x1, x2, x3⟩

/-- A stored block of data has the errors of the compression. -/
theorem data_stored_close (hbits : Supported col.bits) (hk : col.isData = true)
    (hsize : col.blockSize = Layout.blockSize (col.metaCount rows col.antennaCount) (col.symCount rows) col.bits)
    (hr0 : 0 < rows) (hsq : AF.SqrtMono sq) {gd : Grid} (hd : Quantised e col.bits gd)
    {r r' : Rows (DataRow Cx)} (hfit : FitData col rows antOf b r)
    (hr : Recoded true (dataCodec sq e antOf rows col) col rows b r r')
    {v : Nat → DataRow Cx} (hv : ∀ j, j < rows → r.get j = some (v j))
    (hf : FineData col rows rows col.antennaCount (fun j => antOf (b * rows + j)) v) :
    ∀ j, j < rows → ∃ x, r'.get j = some x ∧
      CloseData sq e gd col rows col.antennaCount (fun j => antOf (b * rows + j)) v j x.vis := by
  obtain ⟨bd, l, L, δ, u2, u3, hδ2, u4, u5⟩ := hd
  have hT := u2.table
  obtain ⟨dith, fuel', metaB, sym, hwr, hval⟩ := data_stored hbits hk hsize hT u2.count hr0
    (fun hn => ⟨(hf.af hn).1, (hf.af hn).2.1⟩) hfit hr
  have hn2 := hT.levels.two
  have hδ : 0 ≤ δ := by
    have h1 := u2.gap 0 (by omega)
    have h2 := hT.levels.asc 0 1 (by omega) (by omega)
    linarith
  have hacc := dither_accurate hT Fl.r32 δ hδ u2.sym u2.gap
  have hget : ∀ j, j < rows → (toBlock ⟨.fin 0, .fin 0⟩ r).get j = v j := fun j hj => toBlock_get _ (hv j hj)
  have hH : Dysco.Holds rows (col.nPol * col.nCh) (fun j => antOf (b * rows + j)) (fun j => (v j).vis.get)
      (toBlock ⟨.fin 0, .fin 0⟩ r) := by
    refine ⟨hfit.len, fun j hj => ?_, fun j hj => ?_, fun j i hj _ => by rw [hget j hj]⟩
    · rw [hget j hj, hf.len j hj]
    · obtain ⟨x, x1, x2, x3⟩ := hfit.row j hj
      rw [toBlock_get _ x1, x3]
  have hF : ∀ j i, j < rows → i < col.nPol * col.nCh → FloatVis ((v j).vis.get i) := by
    intro j i h1 h2 a ha
    obtain ⟨f1, f2⟩ := hf.float j i h1 h2
    rcases ha with ha | ha
    · exact f1 a ha
    · exact f2 a ha
  have htb : TableBlock rows v 0 (toBlock ⟨.fin 0, .fin 0⟩ r) :=
    ⟨hfit.len, fun j hj => by rw [hget j hj, Nat.zero_mul, Nat.zero_add]⟩
  cases hnorm : col.norm with
  | row =>
    intro j hj
    obtain ⟨x, x1, x2, x3⟩ := hval j hj
    refine ⟨x, x1, ?_⟩
    choose M hM using fun row => maxFold_spec (v row).vis.get (col.nPol * col.nCh)
    have hM2 : ∀ row, row < rows → M row ≤ 2 ^ (126 : ℤ) := by
      intro row hrow
      rcases (hM row).2.2.2 with h0 | ⟨i, hi, h0⟩
      · rw [h0]; positivity
      · exact hf.size (by rw [hnorm]; simp) row i _ hrow hi h0
    rw [hnorm] at hwr x3
    have key := fun i (hi : i < col.nPol * col.nCh) => row_values (A' := fun j => antOf (b * rows + j)) hT u2.float u2.low hacc
      hH hF M (fun row _ => (hM row).2) (fun row hrow => div_small (hM row).2.1 u4 (hM2 row hrow))
      u2.count hwr hj hi
    have hle := row_bound (hM j).2.1 u3 u4 u5
    unfold CloseData
    rw [hnorm]
    refine ⟨x2, fun i hi => ?_, M j, (hM j).2, fun i hi m hm => ⟨fun a ha => ?_, fun a ha => ?_⟩⟩
    · rw [x3 i hi]
      exact ⟨(key i hi).1, (key i hi).2.1⟩
    · rw [x3 i hi]
      obtain ⟨y, y1, y2, -⟩ := ((key i hi).2.2 m hm a).1 ha
      exact ⟨y, y1, le_trans y2 hle⟩
    · rw [x3 i hi]
      obtain ⟨y, y1, y2, -⟩ := ((key i hi).2.2 m hm a).2 ha
      exact ⟨y, y1, le_trans y2 hle⟩
  | rf =>
    intro j hj
    obtain ⟨x, x1, x2, x3⟩ := hval j hj
    refine ⟨x, x1, ?_⟩
    choose M hM using fun row po => RF.rowPolMax_exists col.nPol col.nCh (fun r => (v r).vis.get) row po
    have hM2 : ∀ row po, row < rows → po < col.nPol → M row po ≤ 2 ^ (126 : ℤ) := by
      intro row po hrow hpo
      rcases (hM row po).1.2.2 with h0 | ⟨ch, hch, h0⟩
      · rw [h0]; positivity
      · exact hf.size (by rw [hnorm]; simp) row (ch * col.nPol + po) _ hrow
          (by rw [Nat.mul_comm col.nPol]; exact flat_lt hch hpo) h0
    rw [hnorm] at hwr x3
    have key := fun i (hi : i < col.nPol * col.nCh) => rf_values (A' := fun j => antOf (b * rows + j)) hT u2.float u2.low hacc
      hH hF M (fun row po _ _ => (hM row po).1)
      (fun row po hrow hpo => div_small (hM row po).1.1 u4 (hM2 row po hrow hpo))
      (fun _ => 1) (fun _ _ => le_refl _)
      (fun row i m _ hi hm => by rw [one_mul]; exact (hM row (i % col.nPol)).1.le hi hm) (fun _ _ => .inl rfl)
      u2.count hwr hj hi
    have hle : ∀ po, _ := fun po => rf_bound (K := 1) (hM j po).1.1 (by rw [mul_one]; exact (hM j po).1.1) u3 u4 u5
    unfold CloseData
    rw [hnorm]
    refine ⟨x2, fun i hi => ?_, fun i hi m hm => ⟨M j (i % col.nPol), (hM _ _).1, fun a ha => ?_, fun a ha => ?_⟩⟩
    · rw [x3 i hi]
      exact ⟨(key i hi).1, (key i hi).2.1⟩
    · rw [x3 i hi]
      obtain ⟨y, y1, y2, -⟩ := ((key i hi).2.2 m hm a).1 ha
      exact ⟨y, y1, by have := le_trans y2 (hle _); rwa [mul_one] at this⟩
    · rw [x3 i hi]
      obtain ⟨y, y1, y2, -⟩ := ((key i hi).2.2 m hm a).2 ha
      exact ⟨y, y1, by have := le_trans y2 (hle _); rwa [mul_one] at this⟩
  | af =>
    obtain ⟨a1, a2, a3, a4, a5, a6⟩ := hf.af hnorm
    rw [hnorm] at hwr
    obtain ⟨N, k1, k2⟩ := af_values hsq hT u2.float u2.low hacc a1 hr0 hH hf.float a2 a4 a5 a6 a3 u2.count hwr
    intro j hj
    obtain ⟨x, x1, x2, x3⟩ := hval j hj
    rw [hnorm] at x3
    refine ⟨x, x1, ?_⟩
    have hsplit : ∀ i, i < col.nPol * col.nCh → ∃ ch po, ch < col.nCh ∧ po < col.nPol ∧ i = ch * col.nPol + po := by
      intro i hi
      have hpol : 0 < col.nPol := Nat.pos_of_ne_zero (by rintro h0; simp [h0] at hi)
      exact ⟨i / col.nPol, i % col.nPol, Nat.div_lt_of_lt_mul hi, Nat.mod_lt _ hpol, (Nat.div_add_mod' i col.nPol).symm⟩
    unfold CloseData
    rw [hnorm]
    refine ⟨x2, fun i hi => ?_, metaB, N, ⟨dith, _, by rw [Nat.div_eq_of_lt hj]; exact htb, k1⟩, ?_⟩
    · obtain ⟨ch, po, h1, h2, rfl⟩ := hsplit i hi
      rw [x3 _ hi]
      exact ⟨(k2 j ch po hj h1 h2).1, (k2 j ch po hj h1 h2).2.1⟩
    · intro hN hx ch po h1 h2 m g i hm hfac
      have hpos : 0 < g := hfac.pos
      have hf' : Factors metaB L col.nPol col.nCh col.antennaCount ch po (antOf (b * rows + j)) g := by
        obtain ⟨q0, q1, q2, t0, t1, t2, t3, t4, t5, t6, t7⟩ := hfac
        exact ⟨q0, q1, q2, t0, t1, t2, t3, t4, t5, t6, le_trans (mul_le_mul_of_nonneg_right u5 hpos.le) t7⟩
      have hle : ∀ a, AF.afBound δ g a N ≤ AF.afBound gd.gap g a N := by
        intro a
        unfold AF.afBound
        have := mul_le_mul_of_nonneg_right (mul_le_mul_of_nonneg_right hδ2 hpos.le) (by norm_num : (0 : ℚ) ≤ 1 + 1 / 8000000)
        linarith
      have key := (k2 j ch po hj h1 h2).2.2 hN hx m g hm hf'
      refine ⟨fun a ha => ?_, fun a ha => ?_⟩
      · rw [x3 _ (AF.chan_lt h1 h2)]
        obtain ⟨y, y1, y2⟩ := (key a).1 ha
        exact ⟨y, y1, le_trans y2 (hle a)⟩
      · rw [x3 _ (AF.chan_lt h1 h2)]
        obtain ⟨y, y1, y2⟩ := (key a).2 ha
        exact ⟨y, y1, le_trans y2 (hle a)⟩

end

/-- Storing a block of a column once: the rows that are read afterwards have the errors of the compression. -/
theorem recoded_close {sq : Fl → Fl} {e : Stochastic.Encoder} {antOf : Nat → Nat × Nat} {rows N b : Nat} {k : Kind}
    {col : Column} (h : ColumnOf e antOf rows N k col) (hr0 : 0 < rows) (hsq : AF.SqrtMono sq) {gd : Grid}
    (hd : k = .data → Quantised e col.bits gd) {r r' : Rows (DataRow (Elem k))}
    (hfit : Fit col rows antOf k b r) (hr : Recoded k.isData (codec sq e antOf k rows col) col rows b r r')
    {v : Nat → DataRow (Elem k)} (hv : ∀ j, j < rows → r.get j = some (v j))
    (hf : Fine col rows rows col.antennaCount (fun j => antOf (b * rows + j)) k v) :
    ∀ j, j < rows → ∃ x, r'.get j = some x ∧
      Close sq e gd col rows rows col.antennaCount (fun j => antOf (b * rows + j)) k v j x.vis := by
  cases k with
  | data => exact data_stored_close h.bits h.isData h.size hr0 hsq (hd rfl) hfit hr hv hf
  | weight =>
    obtain ⟨hp, hch⟩ := h.shape rfl
    exact ((weights_recoded (b := b) h.bits h.isData hp hch h.size hfit).2.2 r' hr).2 v hv

/-- The rows of one block. -/
theorem fine_block {antOf : Nat → Nat × Nat} {rows q ants b : Nat} {k : Kind} {col : Column} {v : Nat → DataRow (Elem k)}
    (h : Fine col rows (q * rows) ants antOf k v) (hb : b < q) :
    Fine col rows rows ants (fun j => antOf (b * rows + j)) k fun j => v (b * rows + j) := by
  cases k with
  | data =>
    have h : FineData col rows (q * rows) ants antOf v := h
    exact ⟨fun j hj => h.len _ (flat_lt hb hj), fun j i hj hi => h.float _ i (flat_lt hb hj) hi,
      fun hn j i m hj hi => h.size hn _ i m (flat_lt hb hj) hi, fun hn => ⟨(h.af hn).1,
        fun j hj => (h.af hn).2.1 _ (flat_lt hb hj), fun j i hj hi => (h.af hn).2.2.1 _ i (flat_lt hb hj) hi, (h.af hn).2.2.2⟩⟩
  | weight =>
    have h : FineWeights col (q * rows) v := h
    exact ⟨h.pols, h.channels, fun j hj => h.len _ (flat_lt hb hj), fun j i hj hi => h.float _ i (flat_lt hb hj) hi⟩

/-! ## The last visit to a block -/

section
variable {V : Type} {E : Nat → Rows V → Rows V → Prop} {m : Nat}

theorem Spec.Runs.split {q q' : Spec V} {l1 l2 : List (Col.Op V)} (h : Spec.Runs E m q (l1 ++ l2) q') :
    ∃ q1, Spec.Runs E m q l1 q1 ∧ Spec.Runs E m q1 l2 q' := by
  induction l1 generalizing q with
  | nil => exact ⟨q, .nil q, h⟩
  | cons op l1 ih =>
    cases h with
    | cons hc hr =>
      obtain ⟨q1, h1, h2⟩ := ih hr
      exact ⟨q1, .cons hc h1, h2⟩

/-- A get or put of a row of block `b`. -/
def OnBlock (m b : Nat) : Col.Op V → Prop
  | .put row _ => row / m = b
  | .get row => row / m = b
  | _ => False

theorem visit_cur {b : Nat} {q q' : Spec V} (h : Spec.Visit E b q q') : q'.cur = b ∧ (q.cur = b → q' = q) := by
  cases h with
  | same h => exact ⟨h.symm, fun _ => rfl⟩
  | other q1 h hf => exact ⟨rfl, fun h' => absurd h'.symm h⟩

/-- While only block `b` is used it stays in memory, and a row stays as it is unless it is put. -/
theorem segment {b : Nat} {q q' : Spec V} {seg : List (Col.Op V)} (h : Spec.Runs E m q seg q') (hcur : q.cur = b)
    (hs : ∀ op ∈ seg, OnBlock m b op) :
    q'.cur = b ∧ (q.changed = true → q'.changed = true) ∧
    ∀ row x, row / m = b → (∀ y, Op.put row y ∉ seg) → row % m < q.buf.len → q.buf.get (row % m) = some x →
      q'.buf.get (row % m) = some x := by
  induction h with
  | nil q => exact ⟨hcur, id, fun _ _ _ _ _ h => h⟩
  | @cons q q1 q2 op rest hcall hrest ih =>
    have ho := hs op List.mem_cons_self
    have hs' : ∀ op ∈ rest, OnBlock m b op := fun o h => hs o (List.mem_cons_of_mem _ h)
    cases hcall with
    | put row v q3 hv =>
      have hrow : row / m = b := ho
      obtain rfl := (visit_cur hv).2 (by rw [hrow]; exact hcur)
      obtain ⟨i1, i2, i3⟩ := ih hcur hs'
      refine ⟨i1, fun _ => i2 rfl, fun row' x hb' hn hl hg => ?_⟩
      have hne : row' % m ≠ row % m := by
        intro heq
        have h1 := Nat.div_add_mod row m
        have h2 := Nat.div_add_mod row' m
        rw [hb', heq] at h2
        rw [hrow] at h1
        obtain rfl : row' = row := by omega
        exact hn v List.mem_cons_self
      refine i3 row' x hb' (fun y hy => hn y (List.mem_cons_of_mem _ hy)) ?_ ?_
      · simp only [Rows.set]
        split <;> omega
      · simp only [Rows.set]
        rw [if_neg hne, if_pos hl]
        exact hg
    | get row q3 hv =>
      obtain rfl := (visit_cur hv).2 (by rw [show row / m = b from ho]; exact hcur)
      obtain ⟨i1, i2, i3⟩ := ih hcur hs'
      exact ⟨i1, i2, fun row' x hb' hn => i3 row' x hb' fun y hy => hn y (List.mem_cons_of_mem _ hy)⟩
    | close => exact ho.elim

/-- A changed block is stored when another block is used or the table is closed. -/
theorem stored_later {b : Nat} {q q' : Spec V} {post : List (Col.Op V)} (hr : Spec.Runs E m q (post ++ [.close]) q')
    (hcur : q.cur = b) (hch : q.changed = true) (hpost : ∀ row v, Op.put row v ∈ post → row / m ≠ b) :
    E b q.buf (q'.blocks b) := by
  have hflush : ∀ {q q1 : Spec V}, Spec.Flush E q q1 → q.cur = b → q.changed = true → E b q.buf (q1.blocks b) ∧
      q1.changed = false := by
    intro q q1 hf hcur hch
    cases hf with
    | clean h => rw [hch] at h; cases h
    | write r' h1 h2 =>
      refine ⟨?_, rfl⟩
      show E b q.buf (Function.update q.blocks q.cur r' b)
      rw [← hcur, Function.update_self]
      exact h2
  have hrest : ∀ {q q1 : Spec V} {ops : List (Col.Op V)} {r : Rows V}, Spec.Runs E m q ops q1 →
      (q.changed = true → q.cur ≠ b) → (∀ row v, Op.put row v ∈ ops → row / m ≠ b) → E b r (q.blocks b) →
      E b r (q1.blocks b) := by
    intro q q1 ops r h1 h2 h3 h4
    rw [runs_untouched h1 h2 h3]
    exact h4
  have hput : ∀ {l : List (Col.Op V)}, (∀ row v, Op.put row v ∈ l → row / m ≠ b) →
      ∀ row v, Op.put row v ∈ l ++ [.close] → row / m ≠ b := by
    intro l hl row v hm
    rcases List.mem_append.mp hm with h | h
    · exact hl row v h
    · simp at h
  induction post generalizing q with
  | nil =>
    cases hr with
    | cons hc hn =>
      cases hn
      cases hc with
      | close q1 hf => exact (hflush hf hcur hch).1
  | cons op post ih =>
    have hpost' : ∀ row v, Op.put row v ∈ post → row / m ≠ b := fun row v h => hpost row v (List.mem_cons_of_mem _ h)
    cases hr with
    | cons hc hn =>
      cases hc with
      | put row v q3 hv =>
        have hne := hpost row v List.mem_cons_self
        cases hv with
        | same h => exact absurd (h.trans hcur) hne
        | other q1 h hf =>
          refine hrest hn (fun _ => hne) (hput hpost') ?_
          exact (hflush hf hcur hch).1
      | get row q3 hv =>
        cases hv with
        | same h =>
          have := ih hn hcur hch hpost'
          exact this
        | other q1 h hf =>
          obtain ⟨f1, f2⟩ := hflush hf hcur hch
          exact hrest hn (fun hx => by rw [show q1.changed = true from hx] at f2; cases f2) (hput hpost') f1
      | close q1 hf =>
        obtain ⟨f1, f2⟩ := hflush hf hcur hch
        exact hrest hn (fun hx => by rw [f2] at hx; cases hx) (hput hpost') f1

/-- A block is stored with the rows that were last put to it, if these puts are not interrupted by the use of another
block. -/
theorem runs_stored {b : Nat} {q q' : Spec V} {pre seg post : List (Col.Op V)}
    (hr : Spec.Runs E m q (pre ++ (seg ++ (post ++ [.close]))) q') (hs : ∀ op ∈ seg, OnBlock m b op)
    (hput : ∃ row v, Op.put row v ∈ seg) (hpost : ∀ row v, Op.put row v ∈ post → row / m ≠ b) :
    ∃ r, E b r (q'.blocks b) ∧ ∀ row x s1 s2, seg = s1 ++ Op.put row x :: s2 → (∀ y, Op.put row y ∉ s2) →
      r.get (row % m) = some x := by
  obtain ⟨q1, -, hr⟩ := hr.split
  obtain ⟨q2, hseg, hr⟩ := hr.split
  have key : ∀ row x s1 s2, seg = s1 ++ Op.put row x :: s2 → q2.cur = b ∧ q2.changed = true ∧
      ((∀ y, Op.put row y ∉ s2) → q2.buf.get (row % m) = some x) := by
    intro row x s1 s2 he
    have hb : row / m = b := hs (Op.put row x) (by rw [he]; simp)
    have hs2 : ∀ op ∈ s2, OnBlock m b op := fun op ho => hs op (by rw [he]; simp [ho])
    rw [he] at hseg
    obtain ⟨q3, -, h3⟩ := hseg.split
    cases h3 with
    | cons hc hn =>
      cases hc with
      | put _ _ q4 hv =>
        obtain ⟨c1, c2, c3⟩ := segment hn (b := b) (by show q4.cur = b; rw [(visit_cur hv).1]; exact hb) hs2
        refine ⟨c1, c2 rfl, fun hy => c3 row x hb hy ?_ ?_⟩
        · simp only [Rows.set]
          split <;> omega
        · simp only [Rows.set, if_true]
  obtain ⟨row, v, hm⟩ := hput
  obtain ⟨s1, s2, he⟩ := List.append_of_mem hm
  obtain ⟨k1, k2, -⟩ := key row v s1 s2 he
  exact ⟨q2.buf, stored_later hr k1 k2 hpost, fun row x s1 s2 he hy => (key row x s1 s2 he).2.2 hy⟩

end

/-! ## Sessions -/

section
variable {c : Nat} {kind : Fin c → Kind} {sq : Fl → Fl} {e : Stochastic.Encoder} {antOf : Nat → Nat × Nat}
  {rows N ants : Nat} {mt man : Man} {blocks : Blocks fun i => Elem (kind i)} {κ : Type}
  {P : (i : Fin c) → Params (DataRow (Elem (kind i))) κ} {prog : List (MOp fun i => DataRow (Elem (kind i)))}

/-- A session on a table in a file was closed. Consider, for a block `b` of a column, the last time that rows of it were
put: `seg` are calls for this block only, and after them no row of the block is put. Then the block was stored from rows
`r` that have the values that were put (rows that were not put have the values they were read with), and the file holds
these rows with the errors of the compression. -/
theorem update_close (hS : Setting kind e antOf rows N ants mt) (h : TableFile kind sq e antOf rows N ants mt man blocks)
    (hP : Program P antOf rows N man prog) (hsq : AF.SqrtMono sq) {gd : Grid}
    (hd : Quantised e mt.dataBitCount gd) {k : κ} {s : SState P}
    (hr : SReach (usesAnts kind) (codecs sq e antOf kind) (sinitial P k rows N man blocks prog) s)
    (hcl : s.cols.pc = .closed) :
    ∃ blocks', TableFile kind sq e antOf rows N ants mt s.man blocks' ∧
      ∀ (i : Fin c) col, man.columns[i.val]? = some col → ∀ b (pre seg post : List (Col.Op (DataRow (Elem (kind i))))),
        ops i prog = pre ++ (seg ++ (post ++ [.close])) → (∀ op ∈ seg, OnBlock rows b op) →
        (∃ row v, Op.put row v ∈ seg) → (∀ row v, Op.put row v ∈ post → row / rows ≠ b) →
        ∃ r, Fit col rows antOf (kind i) b r ∧
          (∀ row x (s1 s2 : List (Col.Op (DataRow (Elem (kind i))))), seg = s1 ++ Op.put row x :: s2 →
            (∀ y, Op.put row y ∉ s2) → r.get (row % rows) = some x) ∧
          ∀ v, (∀ j, j < rows → r.get j = some (v j)) →
            Fine col rows rows ants (fun j => antOf (b * rows + j)) (kind i) v →
            ∀ j, j < rows → ∃ x, (blocks' i b).get j = some x ∧
              Close sq e gd col rows rows ants (fun j => antOf (b * rows + j)) (kind i) v j x.vis := by
  obtain ⟨blocks', t1, t2⟩ := (table_updated hS h hP hr).2.2 hcl
  have hN := blocks_small hS
  refine ⟨blocks', t1, fun i col hcol b pre seg post ho hs hput hpost => ?_⟩
  obtain ⟨q, q1, q2, -⟩ := t2 i col hcol
  have hk := hP.keeps hS h i col hcol
  obtain ⟨-, q3⟩ := runs_fit q1 (hP.updates i) hk.put hk.code hk.start
    (fun hx => absurd hx (by show ¬ noBlock < N; omega)) (fun hx => by cases hx)
  rw [ho] at q3
  obtain ⟨r, ⟨r1, r2, r3⟩, r4⟩ := runs_stored q3 hs hput hpost
  refine ⟨r, r3, r4, fun v hv hf => ?_⟩
  rw [← q2]
  have hcolumn := hS.column h.made hcol
  obtain ⟨nRow, hn⟩ := h.made.columns
  rw [hn] at hcol
  obtain ⟨c0, g0, g1, -, -, g4, -, g6, -⟩ := newTable_column hS.new hcol
  have hbits : kind i = .data → col.bits = mt.dataBitCount := by
    intro hki
    rw [g4, hS.kinds i c0 g0, hki]
    rfl
  rw [← g6] at hf ⊢
  exact recoded_close hcolumn hS.new.rowCount.1 hsq (fun hki => by rw [hbits hki]; exact hd) r3 r1 hv hf

/-- A block of which all rows are overwritten: the file holds what was put, with the errors of the compression. -/
theorem block_overwritten (hS : Setting kind e antOf rows N ants mt) (h : TableFile kind sq e antOf rows N ants mt man blocks)
    (hP : Program P antOf rows N man prog) (hsq : AF.SqrtMono sq) {gd : Grid}
    (hd : Quantised e mt.dataBitCount gd) {k : κ} {s : SState P}
    (hr : SReach (usesAnts kind) (codecs sq e antOf kind) (sinitial P k rows N man blocks prog) s)
    (hcl : s.cols.pc = .closed) :
    ∃ blocks', TableFile kind sq e antOf rows N ants mt s.man blocks' ∧
      ∀ (i : Fin c) col, man.columns[i.val]? = some col →
        ∀ b (pre post : List (Col.Op (DataRow (Elem (kind i))))) (v : Nat → DataRow (Elem (kind i))),
        ops i prog = pre ++ ((List.range rows).map (fun j => Op.put (b * rows + j) (v j)) ++ (post ++ [.close])) →
        (∀ row v, Op.put row v ∈ post → row / rows ≠ b) →
        Fine col rows rows ants (fun j => antOf (b * rows + j)) (kind i) v →
        ∀ j, j < rows → ∃ x, (blocks' i b).get j = some x ∧
          Close sq e gd col rows rows ants (fun j => antOf (b * rows + j)) (kind i) v j x.vis := by
  obtain ⟨blocks', t1, t2⟩ := update_close hS h hP hsq hd hr hcl
  have hr0 := hS.new.rowCount.1
  refine ⟨blocks', t1, fun i col hcol b pre post v ho hpost hf => ?_⟩
  obtain ⟨r, -, r2, r3⟩ := t2 i col hcol b pre _ post ho
    (by
      intro op hop
      obtain ⟨j, hj, rfl⟩ := List.mem_map.mp hop
      exact flat_div (List.mem_range.mp hj))
    ⟨_, _, List.mem_map.mpr ⟨0, List.mem_range.mpr hr0, rfl⟩⟩ hpost
  refine r3 v (fun j hj => ?_) hf
  have hsplit : (List.range rows).map (fun j => Op.put (b * rows + j) (v j)) =
      (List.range j).map (fun j => Op.put (b * rows + j) (v j)) ++ Op.put (b * rows + j) (v j) ::
        (List.range (rows - (j + 1))).map (fun k => Op.put (b * rows + (j + 1 + k)) (v (j + 1 + k))) := by
    have hrange : List.range rows = List.range j ++ j :: (List.range (rows - (j + 1))).map (j + 1 + ·) := by
      conv_lhs => rw [show rows = j + 1 + (rows - (j + 1)) by omega, List.range_add, List.range_succ]
      simp
    rw [hrange]
    simp [Function.comp_def]
  have := r2 (b * rows + j) (v j) _ _ hsplit (by
    intro y hy
    obtain ⟨k, -, hk⟩ := List.mem_map.mp hy
    injection hk with hk
    omega)
  rwa [flat_mod hj] at this

end

end Dysco.Session
