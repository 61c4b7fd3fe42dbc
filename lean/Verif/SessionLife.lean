import Verif.SessionClose

/-!
# The life of a table

A table that was created and written holds its rows as the compression changes them, and it is a table that can be
opened, changed and read in any number of sessions.
-/

namespace Dysco.Session
open Col Multi StMan End BytePacker Layout World TimeBlock
open Prepare (Lib encoder)
open Tools (Distribution)

theorem closeValue_congr {ε : ℚ → ℚ} {u y y' : Fl} (h : CloseValue ε u y) (e : y' = y) : CloseValue ε u y' := by
  rw [e]; exact h

/-- Only the values of the row matter. -/
theorem close_congr {sq : Fl → Fl} {e : Stochastic.Encoder} {gd : Grid} {col : Column} {rows R ants : Nat}
    {antOf : Nat → Nat × Nat} {k : Kind} {v : Nat → DataRow (Elem k)} {row : Nat} {out out' : Buf (Elem k)}
    (h : Close sq e gd col rows R ants antOf k v row out) (hl : out'.len = out.len)
    (hg : ∀ j, j < col.nPol * col.nCh → out'.get j = out.get j) :
    Close sq e gd col rows R ants antOf k v row out' := by
  cases k with
  | data =>
    have h : CloseData sq e gd col rows ants antOf v row out := h
    show CloseData sq e gd col rows ants antOf v row out'
    unfold CloseData at h ⊢
    obtain ⟨h1, h2, h3⟩ := h
    refine ⟨hl.trans h1, fun j hj => by rw [hg j hj]; exact h2 j hj, ?_⟩
    cases hn : col.norm with
    | row =>
      rw [hn] at h3
      obtain ⟨M, m1, m2⟩ := h3
      exact ⟨M, m1, fun j hj m hm => ⟨closeValue_congr (m2 j hj m hm).1 (by rw [hg j hj]),
        closeValue_congr (m2 j hj m hm).2 (by rw [hg j hj])⟩⟩
    | rf =>
      rw [hn] at h3
      intro j hj m hm
      obtain ⟨M, m1, m2⟩ := h3 j hj m hm
      exact ⟨M, m1, closeValue_congr m2.1 (by rw [hg j hj]), closeValue_congr m2.2 (by rw [hg j hj])⟩
    | af =>
      rw [hn] at h3
      obtain ⟨metaB, N, m1, m2⟩ := h3
      refine ⟨metaB, N, m1, fun hN hx ch po hch hpo m g => ?_⟩
      have hj : ch * col.nPol + po < col.nPol * col.nCh := by
        rw [Nat.mul_comm col.nPol]
        exact flat_lt hch hpo
      intro j hm hf
      obtain ⟨c1, c2⟩ := m2 hN hx ch po hch hpo m g hm hf
      exact ⟨closeValue_congr c1 (by rw [hg _ hj]), closeValue_congr c2 (by rw [hg _ hj])⟩
  | weight =>
    obtain ⟨mn, M, h1, h2, h3, h4⟩ := h
    refine ⟨mn, M, h1, h2, hl.trans h3, fun ch po hch hpo => ?_⟩
    rw [hg _ (by rw [Nat.mul_comm col.nPol]; exact flat_lt hch hpo)]
    exact h4 ch po hch hpo

/-- The rows of a block of such a table can be encoded. -/
theorem fine_fit {col : Column} {rows q ants : Nat} {antOf : Nat → Nat × Nat} {k : Kind} {v : Nat → DataRow (Elem k)}
    (hf : Fine col rows (q * rows) ants antOf k v)
    (hants : ∀ r, r < q * rows → ((v r).antenna1, (v r).antenna2) = antOf r) {b : Nat} (hb : b < q)
    {r : Rows (DataRow (Elem k))} (hl : r.len = rows) (hr : ∀ j, j < rows → r.get j = some (v (b * rows + j))) :
    Fit col rows antOf k b r := by
  cases k with
  | data => exact FitData.mk hl fun j hj => ⟨_, hr j hj, FineData.len hf _ (flat_lt hb hj), hants _ (flat_lt hb hj)⟩
  | weight =>
    exact FitWeights.mk hl fun j hj => ⟨_, hr j hj, FineWeights.len hf _ (flat_lt hb hj),
      fun i hi => FineWeights.float hf _ i (flat_lt hb hj) hi⟩

section
variable {κ : Type} {c : Nat} {kind : Fin c → Kind} {P : (i : Fin c) → Params (DataRow (Elem (kind i))) κ}
  {rows q ants : Nat} {v : (i : Fin c) → Nat → DataRow (Elem (kind i))} {antOf : Nat → Nat × Nat}
  {prog : List (MOp fun i => DataRow (Elem (kind i)))} {mt : Man}

/-- What is required of the table, from what is required to write it. -/
theorem setting_of {e : Stochastic.Encoder} (hT : WholeTable P rows (q * rows) v antOf prog) (h : NewTable rows ants mt)
    (hc : mt.columns.length = c) (hc0 : 0 < c)
    (hk : ∀ (i : Fin c) c0, mt.columns[i.val]? = some c0 → c0.isData = (kind i).isData)
    (hdb : Supported mt.dataBitCount) (hwb : Supported mt.weightBitCount) {gd : Grid}
    (hd : Quantised e mt.dataBitCount gd)
    {nRow : Nat} (hf : ∀ (i : Fin c) col, (newTable nRow rows ants mt).columns[i.val]? = some col →
      Fine col rows (q * rows) ants antOf (kind i) (v i))
    (hafs : normOf mt.normalization = .af → AF.AntennasBelow (q * rows) ants antOf) :
    Setting kind e antOf rows q ants mt where
  new := h
  columns := hc
  nonempty := hc0
  kinds := hk
  dataBits := hdb
  weightBits := hwb
  weights := by
    intro i c0 h0 hw
    obtain ⟨-, -, f3, -⟩ := newTable_fields (nRow := nRow) h
    have hlen : (newTable nRow rows ants mt).columns.length = c := by
      rw [f3, (layout_spec h.rowCount.2 h.antCount (configured mt mt.columns) 0 (by simpa using h.total)).2.2.1, ← hc]
      simp [configured]
    obtain ⟨col, hcol⟩ : ∃ col, (newTable nRow rows ants mt).columns[i.val]? = some col :=
      ⟨_, List.getElem?_eq_getElem (by rw [hlen]; exact i.isLt)⟩
    obtain ⟨c1, g0, -, g2, g3, -⟩ := newTable_column h hcol
    rw [h0] at g0
    injection g0 with g0
    subst g0
    have := hf i col hcol
    rw [← g2, ← g3]
    generalize v i = vi at this
    revert vi
    rw [hw]
    intro vi this
    exact ⟨FineWeights.pols this, FineWeights.channels this⟩
  table := by
    obtain ⟨b, l, L, δ, k2, -⟩ := hd
    exact ⟨⟨b, l, L, k2.table⟩, k2.count⟩
  antennas := hafs
  small := hT.small

/-- A table was created, all its rows were written by the threads of its columns, and it was closed. Then its file holds a
table. The rows in it are those that were written, with the errors of the compression. -/
theorem table_created (hT : WholeTable P rows (q * rows) v antOf prog) (hants : AntennaCount rows antOf ants)
    (h : NewTable rows ants mt) (hc : mt.columns.length = c) (hc0 : 0 < c)
    (hk : ∀ (i : Fin c) c0, mt.columns[i.val]? = some c0 → c0.isData = (kind i).isData)
    (hdb : Supported mt.dataBitCount) (hwb : Supported mt.weightBitCount)
    {sq : Fl → Fl} (hsq : AF.SqrtMono sq) {e : Stochastic.Encoder} {gd : Grid} (hd : Quantised e mt.dataBitCount gd)
    {nRow : Nat} (hf : ∀ (i : Fin c) col, (newTable nRow rows ants mt).columns[i.val]? = some col →
      Fine col rows (q * rows) ants antOf (kind i) (v i))
    (hafs : normOf mt.normalization = .af → AF.AntennasBelow (q * rows) ants antOf)
    {k : κ} {w : WState P} (hw : WReach (codecs sq e antOf kind) (winitial P k nRow mt prog) w)
    (hcl : w.cols.pc = .closed) :
    ∃ blocks, TableFile kind sq e antOf rows q ants mt w.man blocks ∧
      ∀ (i : Fin c) col row, w.man.columns[i.val]? = some col → row < q * rows →
        ∃ x, (blocks i (row / rows)).get (row % rows) = some x ∧
          Close sq e gd col rows (q * rows) ants antOf (kind i) (v i) row x.vis := by
  have hS := setting_of hT h hc hc0 hk hdb hwb hd hf hafs
  have hr0 := h.rowCount.1
  have hq : 0 < q := Nat.pos_of_ne_zero (by rintro rfl; have := hT.more; omega)
  obtain ⟨ops, hm, hlast, hcols⟩ := world_closed hT hants h hc hc0 hw hcl
  have hF := newTable_fresh (nRow := nRow) h
  obtain ⟨f1, -, f3, -⟩ := newTable_fields (nRow := nRow) h
  have hlen : (newTable nRow rows ants mt).columns.length = c := by
    rw [f3, (layout_spec h.rowCount.2 h.antCount (configured mt mt.columns) 0 (by simpa using h.total)).2.2.1, ← hc]
    simp [configured]
  obtain ⟨hh, hcol⟩ := run_holds hF.holds ops
  obtain ⟨n1, n2⟩ := blockSteps_columns ops (newTable nRow rows ants mt)
  rw [← hm] at hh hcol n1 n2
  have hcolumn : ∀ i : Fin c, ∃ col, (newTable nRow rows ants mt).columns[i.val]? = some col := fun i =>
    ⟨_, List.getElem?_eq_getElem (by rw [hlen]; exact i.isLt)⟩
  -- every block is in the file, encoded from its rows
  have hstore : ∀ (i : Fin c) col b, (newTable nRow rows ants mt).columns[i.val]? = some col → b < q →
      ∃ d r', ops.foldl (storeStep (newTable nRow rows ants mt).columns.length) (fun _ _ => none) b i = some d ∧
        Decodes (usesAnts kind i) (codecs sq e antOf kind i rows col) col rows b d r' ∧ Fit col rows antOf (kind i) b r' := by
    intro i col b hci hb
    obtain ⟨s, hrun, himp⟩ := hcols i
    obtain ⟨rws, ho, hl, hget⟩ := Run.written ⟨hq, _, Nat.le_refl _, hrun⟩ hr0 hb
    obtain ⟨before, d, after, eops, hnot, hd⟩ := single_write (himp col hci) ho
    obtain ⟨r', g1, g2⟩ := fit_decoded (hS.newColumn hci) hb (fine_fit (hf i col hci) (hT.ants i) hb hl hget) hd
    refine ⟨d, r', ?_, g1, g2⟩
    rw [eops, List.foldl_append, List.foldl_cons, store_unwritten _ _ _ _ _ hnot]
    simp only [storeStep]
    rw [if_pos ⟨trivial, trivial, by rw [hlen]; exact i.isLt⟩]
  have hblocks : ∀ (i : Fin c) b, ∃ r', ∀ col, (newTable nRow rows ants mt).columns[i.val]? = some col → b < q →
      ∃ d, ops.foldl (storeStep (newTable nRow rows ants mt).columns.length) (fun _ _ => none) b i = some d ∧
        Decodes (usesAnts kind i) (codecs sq e antOf kind i rows col) col rows b d r' ∧ Fit col rows antOf (kind i) b r' := by
    intro i b
    obtain ⟨col, hci⟩ := hcolumn i
    by_cases hb : b < q
    · obtain ⟨d, r', g1, g2, g3⟩ := hstore i col b hci hb
      refine ⟨r', fun col' hci' _ => ?_⟩
      rw [hci] at hci'
      injection hci' with hci'
      subst hci'
      exact ⟨d, g1, g2, g3⟩
    · exact ⟨Rows.empty, fun _ _ hb' => absurd hb' hb⟩
  choose blocks hblocks using hblocks
  have hcount : w.man.nBlocks = q := by
    apply le_antisymm
    · by_cases h0 : w.man.nBlocks = 0
      · omega
      · obtain ⟨i, d, hi1, hi2⟩ := hh.last h0
        rw [hcol, hlen] at hi1
        have hex : ∃ d, .write (w.man.nBlocks - 1) i d ∈ ops := by
          by_contra hx
          push Not at hx
          rw [store_unwritten _ ops _ _ _ hx] at hi2
          cases hi2
        obtain ⟨d', hd'⟩ := hex
        obtain ⟨s, hrun, himp⟩ := hcols ⟨i, hi1⟩
        obtain ⟨col, hci⟩ := hcolumn ⟨i, hi1⟩
        have him := himp col hci
        unfold Implements at him
        obtain ⟨y, hy, hy1, -⟩ := forall₂_left_mem him (mem_colWrites.mpr hd')
        have hq := hrun.beyond hr0 (Nat.mul_pos hq hr0) (b := y.1) (r := y.2) hy
        rw [← hy1] at hq
        have := lt_of_mul_lt_mul_right hq (Nat.zero_le _)
        simp only at this
        omega
    · obtain ⟨col, hci⟩ := hcolumn ⟨0, hc0⟩
      obtain ⟨d, g1, -⟩ := hblocks ⟨0, hc0⟩ (q - 1) col hci (by omega)
      have := (hh.written (q - 1) 0 d (by rw [hcol, hlen]; exact hc0) g1).1
      omega
  have hfile : TableFile kind sq e antOf rows q ants mt w.man blocks := by
    refine ⟨⟨nRow, ops, w.man.nRow, by rw [← hm], hlast⟩, ⟨_, hh, by rw [n2, f1], by rw [hcol, hlen], hcount, ?_⟩, ?_⟩
    · intro i col b hci hb
      rw [hcol] at hci
      obtain ⟨d, g1, g2, -⟩ := hblocks i b col hci hb
      exact ⟨d, g1, g2⟩
    · intro i col b hci hb
      rw [hcol] at hci
      obtain ⟨d, -, -, g3⟩ := hblocks i b col hci hb
      exact g3
  refine ⟨blocks, hfile, fun i col row hci hrow => ?_⟩
  -- the errors are those of reading the file
  have hsame : List.Forall₂ SameShape mt.columns mt.columns := List.forall₂_same.mpr fun x _ => ⟨rfl, rfl, rfl⟩
  obtain ⟨r, man, e1, e2, e3⟩ := table_end_to_end hT hq (Nat.le_refl _) hants h hc hc0 hk hdb hwb hsq hd hf hw hcl 0 mt hsame
  obtain ⟨r', man', e1', e2', -, e3'⟩ := table_reopened hS hfile 0 mt hsame
  rw [e1] at e1'
  cases e1'
  rw [e2] at e2'
  cases e2'
  obtain ⟨col1, k1, k2⟩ := e3 i
  obtain ⟨col2, l1, l2⟩ := table_read hS e3' i
  rw [hcol, k1] at hci
  injection hci with hci
  subst hci
  have : col2 = col1 := by
    obtain ⟨nr, hnr⟩ := e3'.made.columns
    rw [hnr] at l1
    have g : (newTable nr rows ants mt).columns = (newTable nRow rows ants mt).columns := by
      rw [(newTable_fields (nRow := nr) h).2.2.1, f3]
    rw [g, k1] at l1
    injection l1 with l1
    exact l1.symm
  subst this
  let x : Call (Elem (kind i)) := ⟨row, ⟨col2.nPol * col2.nCh, fun _ => (codec sq e antOf (kind i) rows col2).zero⟩,
    ⟨col2.blockSize, fun _ => 0⟩, ⟨col2.symCount rows, fun _ => 0⟩⟩
  have hg : GoodCalls col2 rows (q * rows) (col2.nPol * col2.nCh) [x] := by
    intro y hy
    rw [List.mem_singleton.mp hy]
    exact ⟨hrow, rfl, rfl, rfl⟩
  obtain ⟨outs, o1, o2⟩ := k2 [x] ⟨0, fun _ => ⟨0, 0, ⟨0, fun _ => (codec sq e antOf (kind i) rows col2).zero⟩⟩⟩ hg
  obtain ⟨outs', o1', o2'⟩ := l2 [x] ⟨0, fun _ => ⟨0, 0, ⟨0, fun _ => (codec sq e antOf (kind i) rows col2).zero⟩⟩⟩ hg
  rw [o1] at o1'
  cases o1'
  cases o2 with
  | @cons _ out _ _ p1 _ =>
    cases o2' with
    | cons p2 _ =>
      obtain ⟨y, y1, y2, y3⟩ := p2
      have hb : row / rows < q := (Nat.div_lt_iff_lt_mul hr0).mpr hrow
      obtain ⟨-, z, z1, z2⟩ := fit_row (hfile.fit i col2 (row / rows) (by rw [hcol]; exact k1) hb) (Nat.mod_lt row hr0)
      have y1' : (blocks i (row / rows)).get (row % rows) = some y := y1
      rw [z1] at y1'
      injection y1' with y1'
      subst y1'
      exact ⟨z, z1, close_congr p1 y2.symm fun j hj => (y3 j (by rw [z2]; exact hj)).symm⟩

end

/-! ## The hypotheses can be met -/

/-- Rows of both columns are read and overwritten, in both blocks; the last block of the first column completely. -/
def sampleUpdate : List (MOp fun i => DataRow (Elem (sampleKind i))) :=
  [.get 0 4, .put 1 1 (sampleTable 1 5), .get 0 0, .put 0 2 (sampleTable 0 3), .get 1 4, .put 0 1 (sampleTable 0 1), .get 0 5,
    .put 0 3 (sampleTable 0 0), .put 0 4 (sampleTable 0 1), .put 0 5 (sampleTable 0 2), .close]

theorem sample_program {man : Man} (hm : Made 3 2 tableMan man) :
    Program sampleCols (fun _ => (0, 1)) 3 2 man sampleUpdate where
  threads i := match i with | 0 => by decide | 1 => by decide
  maxCache i := match i with | 0 => by decide | 1 => by decide
  updates i := match i with
    | 0 => by simp [sampleUpdate, ops, Updates, noBlock]
    | 1 => by simp [sampleUpdate, ops, Updates, noBlock]
  rows := by
    intro i col row x hc hx
    obtain ⟨nRow, hn⟩ := hm.columns
    rw [hn] at hc
    obtain ⟨c0, k0, k1, k2, k3, -⟩ := newTable_column tableMan_new hc
    match i with
    | 0 =>
      obtain rfl : (⟨true, 4, 16, 0, .af, 0, 0, 0⟩ : Column) = c0 := by simpa [tableMan] using k0
      simp only [] at k2 k3
      simp [sampleUpdate, ops] at hx
      have hl : 64 = col.nPol * col.nCh := by rw [k2, k3]
      rcases hx with ⟨-, rfl⟩ | ⟨-, rfl⟩ | ⟨-, rfl⟩ | ⟨-, rfl⟩ | ⟨-, rfl⟩ <;> exact ⟨hl, rfl⟩
    | 1 =>
      obtain rfl : (⟨false, 4, 16, 0, .af, 0, 0, 0⟩ : Column) = c0 := by simpa [tableMan] using k0
      simp only [] at k2 k3
      simp [sampleUpdate, ops] at hx
      obtain ⟨-, rfl⟩ := hx
      have hl : 64 = col.nCh * col.nPol := by rw [k2, k3]
      refine ⟨hl, fun j hj => ⟨((6 : Nat) : ℚ), ?_, by positivity, by norm_num, Fl.repr32_nat (by omega)⟩⟩
      show Fl.fin (((5 : Nat) : ℚ) + 1) = _
      norm_num

/-- The table of `WorldEnd` is created, written and closed; it is opened, changed by the program and closed; then it is
opened again. Its last block has the rows that were put, with the errors of the compression. -/
example : ∃ (e : Stochastic.Encoder) (w : WState sampleCols),
    WReach (codecs AF.coarseSqrt e (fun _ => (0, 1)) sampleKind) (winitial sampleCols 0 6 tableMan sampleProg) w ∧
    w.cols.pc = .closed ∧ ∃ r man blocks, openFile 6 tableMan w.man.file = .ok r ∧ prepare r = (man, true) ∧
      ∃ s : SState sampleCols, SReach (usesAnts sampleKind) (codecs AF.coarseSqrt e (fun _ => (0, 1)) sampleKind)
          (sinitial sampleCols 0 3 2 man blocks sampleUpdate) s ∧ s.cols.pc = .closed ∧
        ∃ r' man' blocks', openFile 6 tableMan s.man.file = .ok r' ∧ prepare r' = (man', true) ∧
          TableFile sampleKind AF.coarseSqrt e (fun _ => (0, 1)) 3 2 2 tableMan man' blocks' ∧
          ∃ col, man.columns[0]? = some col ∧ ∀ j, j < 3 → ∃ x, (blocks' 0 1).get j = some x ∧
            Close AF.coarseSqrt e (grid .truncatedGaussian 8) col 3 3 2 (fun _ => (0, 1)) .data (sampleTable 0) j x.vis := by
  obtain ⟨p0, Q, h⟩ := Quantile.gslNormal_exists 2.5
  obtain ⟨e, _, h1, _⟩ := Prepare.encoder_determined ⟨fun _ => 0, p0, Q, fun _ => .nan⟩ 0 .truncatedGaussian 8 (by norm_num)
    (fun _ => .nan) (fun _ => .nan) (fun _ => .nan) (fun _ => .nan)
  have hants : AntennaCount 3 (fun _ => ((0, 1) : Nat × Nat)) 2 :=
    ⟨fun _ _ => ⟨Nat.two_pos, Nat.one_lt_two⟩, 0, by decide, .inr rfl⟩
  have hk : ∀ (i : Fin 2) c0, tableMan.columns[i.val]? = some c0 → c0.isData = (sampleKind i).isData := by
    intro i c0 h0
    match i with
    | 0 => obtain rfl : (⟨true, 4, 16, 0, .af, 0, 0, 0⟩ : Column) = c0 := by simpa [tableMan] using h0
           rfl
    | 1 => obtain rfl : (⟨false, 4, 16, 0, .af, 0, 0, 0⟩ : Column) = c0 := by simpa [tableMan] using h0
           rfl
  have hb : Supported 8 := by unfold Supported; omega
  have hd : Quantised e tableMan.dataBitCount (grid .truncatedGaussian 8) :=
    concrete_quantised (Or.inr ⟨rfl, by decide, h⟩) (by decide) h1
  have hn : normOf tableMan.normalization ≠ .af := by decide
  obtain ⟨⟨w, w1, w2⟩, -⟩ := World.table_closes sample_whole hants tableMan_new rfl (by decide) hk hb hb AF.coarseSqrt_mono
    hd sample_fine (w := winitial sampleCols 0 6 tableMan sampleProg) (k := 0) .start sampleTable
  have hsame : List.Forall₂ SameShape tableMan.columns tableMan.columns := List.forall₂_same.mpr fun x _ => ⟨rfl, rfl, rfl⟩
  have hS := setting_of sample_whole tableMan_new rfl (by decide) hk hb hb hd sample_fine fun hx => absurd hx hn
  obtain ⟨blocks, t1, -⟩ := table_created sample_whole hants tableMan_new rfl (by decide) hk hb hb AF.coarseSqrt_mono hd
    sample_fine (fun hx => absurd hx hn) w1 w2
  obtain ⟨r, man, o1, o2, -, t2⟩ := table_reopened hS t1 6 tableMan hsame
  have hP := sample_program t2.made
  obtain ⟨⟨s, s1, s2⟩, -⟩ := update_closes hS t2 hP hn (k := 0) .start
  obtain ⟨blocks', t3, t5⟩ := block_overwritten hS t2 hP AF.coarseSqrt_mono hd s1 s2
  obtain ⟨r', man', o1', o2', -, t4⟩ := table_reopened hS t3 6 tableMan hsame
  obtain ⟨nRow, hcols⟩ := t2.made.columns
  obtain ⟨store, hdisk⟩ := t2.disk
  obtain ⟨col, hcol⟩ : ∃ col, man.columns[0]? = some col :=
    ⟨_, List.getElem?_eq_getElem (by rw [hdisk.columns]; exact Nat.two_pos)⟩
  refine ⟨e, w, w1, w2, r, man, blocks, o1, o2, s, s1, s2, r', man', blocks', o1', o2', t4, col, hcol, ?_⟩
  refine t5 0 col hcol 1 [.get 4, .get 0, .put 2 (sampleTable 0 3), .put 1 (sampleTable 0 1), .get 5] [] (sampleTable 0) rfl
    (by simp) ?_
  have hcol' : (newTable 6 3 2 tableMan).columns[0]? = some col := by
    rw [(newTable_fields (nRow := 6) tableMan_new).2.2.1, ← (newTable_fields (nRow := nRow) tableMan_new).2.2.1, ← hcols]
    exact hcol
  have := fine_block (b := 0) (sample_fine 0 col hcol') (by decide)
  simpa using this

/-! The other theorems of this group on the same table: a file that was made by writing and closing it meets their
hypotheses. -/

theorem sample_file : ∃ (e : Stochastic.Encoder) (man : Man) (blocks : Blocks fun i => Elem (sampleKind i)),
    Setting sampleKind e (fun _ => (0, 1)) 3 2 2 tableMan ∧ Quantised e tableMan.dataBitCount (grid .truncatedGaussian 8) ∧
    TableFile sampleKind AF.coarseSqrt e (fun _ => (0, 1)) 3 2 2 tableMan man blocks := by
  obtain ⟨p0, Q, h⟩ := Quantile.gslNormal_exists 2.5
  obtain ⟨e, _, h1, _⟩ := Prepare.encoder_determined ⟨fun _ => 0, p0, Q, fun _ => .nan⟩ 0 .truncatedGaussian 8 (by norm_num)
    (fun _ => .nan) (fun _ => .nan) (fun _ => .nan) (fun _ => .nan)
  have hk : ∀ (i : Fin 2) c0, tableMan.columns[i.val]? = some c0 → c0.isData = (sampleKind i).isData := by
    intro i c0 h0
    match i with
    | 0 => obtain rfl : (⟨true, 4, 16, 0, .af, 0, 0, 0⟩ : Column) = c0 := by simpa [tableMan] using h0
           rfl
    | 1 => obtain rfl : (⟨false, 4, 16, 0, .af, 0, 0, 0⟩ : Column) = c0 := by simpa [tableMan] using h0
           rfl
  have hb : Supported 8 := by unfold Supported; omega
  have hd : Quantised e tableMan.dataBitCount (grid .truncatedGaussian 8) :=
    concrete_quantised (Or.inr ⟨rfl, by decide, h⟩) (by decide) h1
  have hn : normOf tableMan.normalization ≠ .af := by decide
  obtain ⟨⟨w, w1, w2⟩, -⟩ := World.table_closes sample_whole sample_ants tableMan_new rfl (by decide) hk hb hb
    AF.coarseSqrt_mono hd sample_fine (w := winitial sampleCols 0 6 tableMan sampleProg) (k := 0) .start sampleTable
  have hsame : List.Forall₂ SameShape tableMan.columns tableMan.columns := List.forall₂_same.mpr fun x _ => ⟨rfl, rfl, rfl⟩
  have hS := setting_of sample_whole tableMan_new rfl (by decide) hk hb hb hd sample_fine fun hx => absurd hx hn
  obtain ⟨blocks, t1, -⟩ := table_created sample_whole sample_ants tableMan_new rfl (by decide) hk hb hb
    AF.coarseSqrt_mono hd sample_fine (fun hx => absurd hx hn) w1 w2
  obtain ⟨r, man, -, -, -, t2⟩ := table_reopened hS t1 6 tableMan hsame
  exact ⟨e, man, blocks, hS, hd, t2⟩

/-- Whatever the schedule of the update: it does not fail, and once it is closed the file is again the file of a table,
which can be read and closed the way `update_close` says. -/
example : ∃ (e : Stochastic.Encoder) (man : Man) (blocks : Blocks fun i => Elem (sampleKind i)),
    ∀ s : SState sampleCols, SReach (usesAnts sampleKind) (codecs AF.coarseSqrt e (fun _ => (0, 1)) sampleKind)
        (sinitial sampleCols 0 3 2 man blocks sampleUpdate) s →
      s.cols.pc ≠ .failed ∧ ((∀ i, ∀ x ∈ (s.cols.cols i).writes, x.1 < 2) → s.cols.nBlocks = 2) ∧ (∃ store', StMan.Holds s.man store') ∧ (s.cols.pc = .closed →
        ∃ blocks', TableFile sampleKind AF.coarseSqrt e (fun _ => (0, 1)) 3 2 2 tableMan s.man blocks' ∧
          ∃ col, s.man.columns[0]? = some col) := by
  obtain ⟨e, man, blocks, hS, hd, t⟩ := sample_file
  refine ⟨e, man, blocks, fun s hs => ?_⟩
  have hP := sample_program t.made
  obtain ⟨store, hdisk⟩ := t.disk
  obtain ⟨store', b1, -⟩ := session_bytes hP.threads (by decide) hdisk hs
  refine ⟨(table_updated hS t hP hs).1, session_count hP.threads (by decide) hdisk hs, ⟨store', b1⟩, fun hcl => ?_⟩
  obtain ⟨blocks', t', -⟩ := update_close hS t hP AF.coarseSqrt_mono hd hs hcl
  obtain ⟨col, hc, -⟩ := table_read hS t' (0 : Fin 2)
  exact ⟨blocks', t', col, hc⟩

end Dysco.Session
