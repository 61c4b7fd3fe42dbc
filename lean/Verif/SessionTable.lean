import Verif.SessionCodec
import Verif.WorldTable

/-!
# A table that is created, opened, changed and read

`TableFile` says what a file holds that was made by the library. It holds after a table was created and all its columns
were written (`table_created`), it is kept by closing and opening the file (`table_reopened`) and by sessions in which
rows are overwritten (`table_updated`), and it says what reading gives (`table_read`).

The examples are at the end of `SessionLife.lean`.
-/

namespace Dysco.Session
open Col Multi StMan End BytePacker Layout World TimeBlock
open Prepare (Lib encoder)
open Tools (Distribution)

/-! ## Columns -/

/-- What is known of a column of kind `k` of a table with `N` blocks. -/
structure ColumnOf (e : Stochastic.Encoder) (antOf : Nat → Nat × Nat) (rows N : Nat) (k : Kind) (col : Column) :
    Prop where
  isData : col.isData = k.isData
  bits : Supported col.bits
  size : col.blockSize = Layout.blockSize (col.metaCount rows col.antennaCount) (col.symCount rows) col.bits
  table : k = .data → (∃ b l L, Dysco.Table e b l L) ∧ e.quantCount = 2 ^ col.bits
  shape : k = .weight → 1 ≤ col.nPol ∧ 0 < col.nCh
  antennas : k = .data → col.norm = .af → AF.AntennasBelow (N * rows) col.antennaCount antOf

/-- The row `x` can be put in row `row` of the column. -/
def FitRow (col : Column) (antOf : Nat → Nat × Nat) : (k : Kind) → Nat → DataRow (Elem k) → Prop
  | .data, row, x => x.vis.len = col.nPol * col.nCh ∧ (x.antenna1, x.antenna2) = antOf row
  | .weight, _, x => FitWeight col x

section
variable {sq : Fl → Fl} {e : Stochastic.Encoder} {antOf : Nat → Nat × Nat} {rows N : Nat} {col : Column} {k : Kind}

theorem ColumnOf.below (h : ColumnOf e antOf rows N .data col) {b : Nat} (hb : b < N) (hn : col.norm = .af) :
    AF.AntennasBelow rows col.antennaCount fun j => antOf (b * rows + j) :=
  fun _ hj => h.antennas rfl hn _ (flat_lt hb hj)

/-- What was encoded decodes to rows that fit. -/
theorem fit_decoded (h : ColumnOf e antOf rows N k col) {b : Nat} (hb : b < N) {r : Rows (DataRow (Elem k))}
    (hf : Fit col rows antOf k b r) {d : Mem 8} (hd : Encodes (codec sq e antOf k rows col) col rows r d) :
    ∃ r', Decodes k.isData (codec sq e antOf k rows col) col rows b d r' ∧ Fit col rows antOf k b r' := by
  cases k with
  | data =>
    obtain ⟨⟨bd, l, L, hT⟩, hq⟩ := h.table rfl
    obtain ⟨⟨r', g1⟩, g2⟩ := data_decoded (b := b) h.bits h.isData h.size hT hq (h.below hb) hd
    exact ⟨r', g1, g2 r' g1⟩
  | weight =>
    obtain ⟨hp, hch⟩ := h.shape rfl
    obtain ⟨r', g1⟩ := (weights_recoded (b := b) h.bits h.isData hp hch h.size hf).2.1 d hd
    exact ⟨r', g1, (weights_recoded (b := b) h.bits h.isData hp hch h.size hf).2.2 r' ⟨d, hd, g1⟩ |>.1⟩

theorem fit_recoded (h : ColumnOf e antOf rows N k col) {b : Nat} (hb : b < N) {r r' : Rows (DataRow (Elem k))}
    (hf : Fit col rows antOf k b r) (hr : Recoded k.isData (codec sq e antOf k rows col) col rows b r r') :
    Fit col rows antOf k b r' := by
  cases k with
  | data =>
    obtain ⟨⟨bd, l, L, hT⟩, hq⟩ := h.table rfl
    obtain ⟨d, hd1, hd2⟩ := hr
    exact (data_decoded (b := b) h.bits h.isData h.size hT hq (h.below hb) hd1).2 r' hd2
  | weight =>
    obtain ⟨hp, hch⟩ := h.shape rfl
    exact (weights_recoded (b := b) h.bits h.isData hp hch h.size hf).2.2 r' hr |>.1

/-- Rows that fit can be encoded, except perhaps with antenna-frequency normalisation. -/
theorem fit_recodes (h : ColumnOf e antOf rows N k col) (hr0 : 0 < rows) {b : Nat} (hb : b < N)
    (hn : k = .data → col.norm ≠ .af) {r : Rows (DataRow (Elem k))} (hf : Fit col rows antOf k b r) :
    ∃ r', Recoded k.isData (codec sq e antOf k rows col) col rows b r r' := by
  cases k with
  | data =>
    obtain ⟨⟨bd, l, L, hT⟩, hq⟩ := h.table rfl
    obtain ⟨d, hd⟩ := data_encodes (sq := sq) h.bits h.isData h.size hT hq hr0 (hn rfl) hf
    obtain ⟨⟨r', g1⟩, -⟩ := data_decoded (b := b) h.bits h.isData h.size hT hq (h.below hb) hd
    exact ⟨r', d, hd, g1⟩
  | weight =>
    obtain ⟨hp, hch⟩ := h.shape rfl
    exact (weights_recoded (b := b) h.bits h.isData hp hch h.size hf).1

theorem fit_set {b row : Nat} (hr0 : 0 < rows) (hb : row / rows = b) {r : Rows (DataRow (Elem k))} {x : DataRow (Elem k)}
    (hf : Fit col rows antOf k b r) (hx : FitRow col antOf k row x) : Fit col rows antOf k b (r.set (row % rows) x) := by
  have hm : row % rows < rows := Nat.mod_lt _ hr0
  have hrow : b * rows + row % rows = row := by rw [← hb, Nat.mul_comm]; exact Nat.div_add_mod _ _
  cases k with
  | data =>
    have hl : r.len = rows := FitData.len hf
    refine FitData.mk ?_ fun j hj => ?_
    · show (if r.len ≤ row % rows then _ else r.len) = rows
      rw [hl, if_neg (by omega)]
    · by_cases hjr : j = row % rows
      · subst hjr
        exact ⟨x, if_pos rfl, hx.1, by rw [hrow]; exact hx.2⟩
      · obtain ⟨y, y1, y2⟩ := FitData.row hf j hj
        refine ⟨y, ?_, y2⟩
        show (if j = row % rows then some x else if j < r.len then r.get j else none) = _
        rw [if_neg hjr, hl, if_pos hj, y1]
  | weight =>
    have hl : r.len = rows := FitWeights.len hf
    refine FitWeights.mk ?_ fun j hj => ?_
    · show (if r.len ≤ row % rows then _ else r.len) = rows
      rw [hl, if_neg (by omega)]
    · by_cases hjr : j = row % rows
      · subst hjr
        exact ⟨x, if_pos rfl, hx⟩
      · obtain ⟨y, y1, y2⟩ := FitWeights.row hf j hj
        refine ⟨y, ?_, y2⟩
        show (if j = row % rows then some x else if j < r.len then r.get j else none) = _
        rw [if_neg hjr, hl, if_pos hj, y1]

theorem fit_row {b j : Nat} {r : Rows (DataRow (Elem k))} (hf : Fit col rows antOf k b r) (hj : j < rows) :
    r.len = rows ∧ ∃ x, r.get j = some x ∧ x.vis.len = col.nPol * col.nCh := by
  cases k with
  | data =>
    obtain ⟨x, x1, x2, -⟩ := FitData.row hf j hj
    exact ⟨FitData.len hf, x, x1, x2⟩
  | weight =>
    obtain ⟨x, x1, x2, -⟩ := FitWeights.row hf j hj
    exact ⟨FitWeights.len hf, x, x1, by rw [Nat.mul_comm]; exact x2⟩

end

/-! ## Tables -/

variable {c : Nat} {kind : Fin c → Kind}

/-- The codecs of the columns. -/
abbrev codecs (sq : Fl → Fl) (e : Stochastic.Encoder) (antOf : Nat → Nat × Nat) (kind : Fin c → Kind) :
    Codecs fun i => Elem (kind i) := fun i => codec sq e antOf (kind i)

/-- The columns that use the antennas of the rows. -/
abbrev usesAnts (kind : Fin c → Kind) : Fin c → Bool := fun i => (kind i).isData

/-- A table of `N` blocks of `rows` rows, with the columns and settings of `mt`. The rows of data have the antennas
`antOf`; with antenna-frequency normalisation these occur in the first block. -/
structure Setting (kind : Fin c → Kind) (e : Stochastic.Encoder) (antOf : Nat → Nat × Nat) (rows N ants : Nat) (mt : Man) :
    Prop where
  new : NewTable rows ants mt
  columns : mt.columns.length = c
  nonempty : 0 < c
  kinds : ∀ (i : Fin c) c0, mt.columns[i.val]? = some c0 → c0.isData = (kind i).isData
  dataBits : Supported mt.dataBitCount
  weightBits : Supported mt.weightBitCount
  weights : ∀ (i : Fin c) c0, mt.columns[i.val]? = some c0 → kind i = .weight → 1 ≤ c0.nPol ∧ 0 < c0.nCh
  table : (∃ b l L, Dysco.Table e b l L) ∧ e.quantCount = 2 ^ mt.dataBitCount
  antennas : normOf mt.normalization = .af → AF.AntennasBelow (N * rows) ants antOf
  small : N * rows ≤ noBlock

/-- The manager was made by `create`, operations on blocks and opening. -/
def Made (rows ants : Nat) (mt man : Man) : Prop :=
  ∃ (nRow : Nat) (ops : List BlockOp) (n : Nat), man = { ops.foldl blockStep (newTable nRow rows ants mt) with nRow := n } ∧
    (man.nBlocks = 0 ∨ ∃ d, BlockOp.write (man.nBlocks - 1) (mt.columns.length - 1) d ∈ ops)

/-- The file of `man` holds a table with these blocks. -/
structure TableFile (kind : Fin c → Kind) (sq : Fl → Fl) (e : Stochastic.Encoder) (antOf : Nat → Nat × Nat)
    (rows N ants : Nat) (mt man : Man) (blocks : Blocks fun i => Elem (kind i)) : Prop where
  made : Made rows ants mt man
  disk : ∃ store, OnDisk (usesAnts kind) (codecs sq e antOf kind) rows N man store blocks
  fit : ∀ (i : Fin c) col b, man.columns[i.val]? = some col → b < N → Fit col rows antOf (kind i) b (blocks i b)

section
variable {sq : Fl → Fl} {e : Stochastic.Encoder} {antOf : Nat → Nat × Nat} {rows N ants : Nat} {mt : Man}

theorem Made.columns {man : Man} (h : Made rows ants mt man) :
    ∃ nRow, man.columns = (newTable nRow rows ants mt).columns := by
  obtain ⟨nRow, ops, n, rfl, -⟩ := h
  exact ⟨nRow, (blockSteps_columns ops _).1⟩

theorem Setting.newColumn (h : Setting kind e antOf rows N ants mt) {nRow : Nat} {i : Fin c} {col : Column}
    (hc : (newTable nRow rows ants mt).columns[i.val]? = some col) : ColumnOf e antOf rows N (kind i) col := by
  obtain ⟨c0, g0, g1, g2, g3, g4, g5, g6, g7⟩ := newTable_column h.new hc
  have hk := h.kinds i c0 g0
  refine ⟨g1.trans hk, ?_, by rw [g7, g6], fun hd => ⟨h.table.1, ?_⟩, fun hd => ?_, fun _ hn => ?_⟩
  · rw [g4]
    split
    · exact h.dataBits
    · exact h.weightBits
  · rw [g4, hk, hd]
    exact h.table.2
  · rw [g2, g3]
    exact h.weights i c0 g0 hd
  · rw [g6]
    exact h.antennas (by rw [← g5]; exact hn)

theorem Setting.column (h : Setting kind e antOf rows N ants mt) {man : Man} (hm : Made rows ants mt man) {i : Fin c}
    {col : Column} (hc : man.columns[i.val]? = some col) : ColumnOf e antOf rows N (kind i) col := by
  obtain ⟨nRow, hn⟩ := hm.columns
  exact h.newColumn (by rw [← hn]; exact hc)

theorem blockStep_nRow (m : Man) (n : Nat) (op : BlockOp) :
    blockStep { m with nRow := n } op = { blockStep m op with nRow := n } := by
  cases op with
  | write b i d =>
    simp only [blockStep]
    split
    · rfl
    · unfold writeCompressedData
      simp only
      split <;> rfl
  | read b i d =>
    simp only [blockStep]
    split
    · rfl
    · split
      · rename_i col _ _
        have hg : getFileOffset { m with nRow := n } b = getFileOffset m b := rfl
        unfold readCompressedData
        rw [hg]
        by_cases h1 : m.failed = true ∨ m.file.len < getFileOffset m b + col.offset + col.blockSize
        · by_cases h2 : b + 1 ≠ m.nBlocks
          · simp only [if_pos h1, if_pos h2]
          · simp only [if_pos h1, if_neg h2]
        · simp only [if_neg h1]
      · rfl
  | header =>
    have hh : Man.headerBytes { m with nRow := n } = m.headerBytes := by
      unfold Man.headerBytes Man.header
      rfl
    simp only [blockStep, writeHeader]
    rw [hh]
    by_cases h : m.failed = true
    · simp only [if_pos h]
    · simp only [if_neg h]

theorem blockSteps_nRow (ops : List BlockOp) (m : Man) (n : Nat) :
    ops.foldl blockStep { m with nRow := n } = { ops.foldl blockStep m with nRow := n } := by
  induction ops generalizing m with
  | nil => rfl
  | cons op ops ih =>
    rw [List.foldl_cons, List.foldl_cons, blockStep_nRow, ih]

theorem Made.steps {man : Man} (h : Made rows ants mt man) (ops : List BlockOp)
    (hn : (ops.foldl blockStep man).nBlocks = man.nBlocks) : Made rows ants mt (ops.foldl blockStep man) := by
  obtain ⟨nRow, ops0, n, rfl, hl⟩ := h
  refine ⟨nRow, ops0 ++ ops, n, ?_, ?_⟩
  · rw [blockSteps_nRow, List.foldl_append]
  · rw [hn]
    rcases hl with hl | ⟨d, hd⟩
    · exact .inl hl
    · exact .inr ⟨d, List.mem_append_left _ hd⟩

/-- A file can be closed and opened, and its columns prepared: it still holds the same. -/
theorem table_reopened (hS : Setting kind e antOf rows N ants mt) {man : Man} {blocks : Blocks fun i => Elem (kind i)}
    (h : TableFile kind sq e antOf rows N ants mt man blocks) (nRow' : Nat) (m0 : Man)
    (hs : List.Forall₂ SameShape m0.columns mt.columns) :
    ∃ r man', openFile nRow' m0 man.file = .ok r ∧ prepare r = (man', true) ∧ man'.nRow = nRow' ∧
      TableFile kind sq e antOf rows N ants mt man' blocks := by
  obtain ⟨nRow, ops, n, rfl, hl⟩ := h.made
  obtain ⟨store, hd⟩ := h.disk
  obtain ⟨r, e1, e2⟩ := reopen_prepare hS.new nRow ops nRow' m0 hs (by
    intro he
    have := hS.columns
    rw [he] at this
    have := hS.nonempty
    simp at *
    omega) hl
  refine ⟨r, _, e1, e2, rfl, ⟨nRow, ops, nRow', rfl, hl⟩, ⟨store, ?_⟩, h.fit⟩
  exact ⟨Holds.withRows (m := { ops.foldl blockStep (newTable nRow rows ants mt) with nRow := n }) hd.holds nRow',
    hd.rowsPerBlock, hd.columns, hd.count, hd.data⟩

/-- Rows are read in any order: a row has the values of its block. -/
theorem table_read (hS : Setting kind e antOf rows N ants mt) {man : Man} {blocks : Blocks fun i => Elem (kind i)}
    (h : TableFile kind sq e antOf rows N ants mt man blocks) (i : Fin c) :
    ∃ col, man.columns[i.val]? = some col ∧ ReadsBack (codec sq e antOf (kind i) rows col) i col rows (N * rows) man
      fun row out => ∃ x, (blocks i (row / rows)).get (row % rows) = some x ∧ out.len = x.vis.len ∧
        ∀ j, j < x.vis.len → out.get j = x.vis.get j := by
  obtain ⟨store, hd⟩ := h.disk
  have hr0 := hS.new.rowCount.1
  have hi : i.val < man.columns.length := by rw [hd.columns]; exact i.isLt
  obtain ⟨col, hcol⟩ : ∃ col, man.columns[i.val]? = some col := ⟨_, List.getElem?_eq_getElem hi⟩
  have hce : man.columns[i.val] = col := (List.getElem?_eq_some_iff.mp hcol).2
  refine ⟨col, hcol, fun calls buf hcalls => ?_⟩
  have hrow : ∀ row, ∃ x : DataRow (Elem (kind i)), row < N * rows →
      (blocks i (row / rows)).get (row % rows) = some x ∧ x.vis.len = col.nPol * col.nCh := by
    intro row
    by_cases hrow : row < N * rows
    · obtain ⟨-, x, x1, x2⟩ := fit_row (h.fit i col (row / rows) hcol ((Nat.div_lt_iff_lt_mul hr0).mpr hrow)) (Nat.mod_lt row hr0)
      exact ⟨x, fun _ => ⟨x1, x2⟩⟩
    · exact ⟨⟨0, 0, ⟨0, fun _ => (codec sq e antOf (kind i) rows col).zero⟩⟩, fun h' => absurd h' hrow⟩
  choose x hx using hrow
  obtain ⟨outs, g1, g2⟩ := getAll_spec (K := codec sq e antOf (kind i) rows col) (i := i.val) (n := col.nPol * col.nCh) (q := N)
    (m := man) (U := fun row j => (x row).vis.get j) (size := col.blockSize) (nSym := col.symCount rows)
    (by rw [hd.rowsPerBlock]; exact hr0) (le_of_eq hd.count.symm) (by rw [hd.rowsPerBlock]; exact hS.small)
    (by
      intro b hb packed unpacked cur old hp hu
      obtain ⟨d, d1, d2⟩ := hd.data i col b hcol hb
      obtain ⟨dest, e1, e2, e3, -⟩ := read_spec hd.holds hi (b := b) (by rw [hd.count]; exact hb) packed
      rw [hce] at e1 e3
      obtain ⟨blk, k1, k2⟩ := d2 dest unpacked old (by rw [e2, hp]) hu (e3 d d1)
      refine ⟨blk, ?_, by rw [hd.rowsPerBlock]; exact k2.blkLen, fun r hr => ?_⟩
      · unfold loadBlock
        rw [hcol]
        simp only
        rw [if_pos (by rw [hd.count]; exact hb), e1]
        simp only
        rw [hd.rowsPerBlock, k1]
      · rw [hd.rowsPerBlock] at hr ⊢
        obtain ⟨y, y1, y2, y3, -⟩ := k2.row r hr
        obtain ⟨x1, x2⟩ := hx (b * rows + r) (flat_lt hb hr)
        rw [flat_div hr, flat_mod hr, y1] at x1
        injection x1 with x1
        rw [← x1] at x2 ⊢
        exact ⟨by rw [← y2, x2], fun j hj => (y3 j (by rw [x2]; exact hj)).symm⟩)
    calls (by rw [hd.rowsPerBlock]; exact hcalls) ⟨man, noBlock, buf⟩ rfl (.inl rfl)
  refine ⟨outs, g1, ?_⟩
  rw [List.forall₂_iff_get] at g2 ⊢
  refine ⟨g2.1, fun k hk hk' => ?_⟩
  obtain ⟨x1, x2⟩ := hx _ (hcalls _ (List.get_mem calls ⟨k, hk⟩)).1
  obtain ⟨o1, o2⟩ := g2.2 k hk hk'
  exact ⟨_, x1, by rw [o1, x2], fun j hj => o2 j (by rw [← x2]; exact hj)⟩

/-! ### Sessions -/

/-- A program that reads and overwrites rows of a table with `N` blocks, and closes the table. -/
structure Program {κ : Type} (P : (i : Fin c) → Params (DataRow (Elem (kind i))) κ) (antOf : Nat → Nat × Nat) (rows N : Nat)
    (man : Man) (prog : List (MOp fun i => DataRow (Elem (kind i)))) : Prop where
  threads : ∀ i, 0 < (P i).threads
  maxCache : ∀ i, 1 ≤ (P i).maxCache
  updates : ∀ i, Updates rows N [] noBlock (ops i prog)
  rows : ∀ (i : Fin c) col row x, man.columns[i.val]? = some col → Op.put row x ∈ ops i prog →
    FitRow col antOf (kind i) row x

variable {κ : Type} {P : (i : Fin c) → Params (DataRow (Elem (kind i))) κ}
  {prog : List (MOp fun i => DataRow (Elem (kind i)))} {man : Man} {blocks : Blocks fun i => Elem (kind i)}

theorem Program.keeps (hS : Setting kind e antOf rows N ants mt) (h : TableFile kind sq e antOf rows N ants mt man blocks)
    (hP : Program P antOf rows N man prog) (i : Fin c) (col : Column) (hcol : man.columns[i.val]? = some col) :
    Keeps (Fit col rows antOf (kind i)) (Recoded (usesAnts kind i) (codecs sq e antOf kind i rows col) col rows) rows N
      (blocks i) (ops i prog) :=
  ⟨fun b hb => h.fit i col b hcol hb,
    fun row x hx _ hr => fit_set hS.new.rowCount.1 rfl hr (hP.rows i col row x hcol hx),
    fun _ _ _ hb hr he => fit_recoded (hS.column h.made hcol) hb hr he⟩

theorem blocks_small (hS : Setting kind e antOf rows N ants mt) : N ≤ noBlock := by
  have h1 := hS.small
  have h2 := hS.new.rowCount.1
  calc N = N * 1 := (Nat.mul_one N).symm
    _ ≤ N * rows := Nat.mul_le_mul_left _ h2
    _ ≤ noBlock := h1

/-- If rows that are put and rows that were stored keep a property, all blocks have it, and whenever a block is stored
its rows have it. -/
theorem runs_fit {V : Type} {G : Nat → Rows V → Prop} {E : Nat → Rows V → Rows V → Prop} {m N : Nat} {ops : List (Col.Op V)}
    {q q' : Spec V} {d : List Nat} (hr : Spec.Runs E m q ops q') (hu : Updates m N d q.cur ops)
    (hput : ∀ row v, Op.put row v ∈ ops → ∀ r, G (row / m) r → G (row / m) (r.set (row % m) v))
    (hcode : ∀ b r r', b < N → G b r → E b r r' → G b r')
    (hb : ∀ b, b < N → G b (q.blocks b)) (hbuf : q.cur < N → G q.cur q.buf) (hc : q.changed = true → q.cur < N) :
    (∀ b, b < N → G b (q'.blocks b)) ∧ Spec.Runs (fun b r r' => E b r r' ∧ b < N ∧ G b r) m q ops q' := by
  have hflush : ∀ {q q1 : Spec V}, Spec.Flush E q q1 → (∀ b, b < N → G b (q.blocks b)) → (q.cur < N → G q.cur q.buf) →
      (q.changed = true → q.cur < N) → (∀ b, b < N → G b (q1.blocks b)) ∧
      Spec.Flush (fun b r r' => E b r r' ∧ b < N ∧ G b r) q q1 := by
    intro q q1 hf hb hbuf hc
    cases hf with
    | clean h => exact ⟨hb, .clean h⟩
    | write r' h1 h2 =>
      refine ⟨fun b hbN => ?_, .write r' h1 ⟨h2, hc h1, hbuf (hc h1)⟩⟩
      show G b (Function.update q.blocks q.cur r' b)
      by_cases hbc : b = q.cur
      · subst hbc
        rw [Function.update_self]
        exact hcode _ _ _ hbN (hbuf hbN) h2
      · rw [Function.update_of_ne hbc]
        exact hb b hbN
  have hvisit : ∀ {q q1 : Spec V} {b : Nat}, b < N → Spec.Visit E b q q1 → (∀ b, b < N → G b (q.blocks b)) →
      (q.cur < N → G q.cur q.buf) → (q.changed = true → q.cur < N) →
      q1.cur = b ∧ (∀ b, b < N → G b (q1.blocks b)) ∧ G b q1.buf ∧
      Spec.Visit (fun b r r' => E b r r' ∧ b < N ∧ G b r) b q q1 := by
    intro q q1 b hbN hv hb hbuf hc
    cases hv with
    | same h => exact ⟨h.symm, hb, by rw [h] at hbN ⊢; exact hbuf hbN, .same h⟩
    | other q2 h hf =>
      obtain ⟨h1, h2⟩ := hflush hf hb hbuf hc
      exact ⟨rfl, h1, h1 b hbN, .other q2 h h2⟩
  induction hr generalizing d with
  | nil q => exact ⟨hb, .nil q⟩
  | @cons q q1 q2 op rest hcall hrest ih =>
    have hput' : ∀ row v, Op.put row v ∈ rest → ∀ r, G (row / m) r → G (row / m) (r.set (row % m) v) :=
      fun row v hm => hput row v (List.mem_cons_of_mem _ hm)
    cases hcall with
    | put row v q3 hv =>
      simp only [Updates] at hu
      obtain ⟨v1, v2, v3, v4⟩ := hvisit hu.1 hv hb hbuf hc
      obtain ⟨i1, i2⟩ := ih (d := row / m :: d) (by show Updates m N _ q3.cur rest; rw [v1]; exact hu.2.2) hput' v2
        (fun _ => by
          show G q3.cur (q3.buf.set (row % m) v)
          rw [v1]
          exact hput row v List.mem_cons_self _ v3)
        (fun _ => by show q3.cur < N; rw [v1]; exact hu.1)
      exact ⟨i1, .cons (.put row v q3 v4) i2⟩
    | get row q3 hv =>
      simp only [Updates] at hu
      obtain ⟨v1, v2, v3, v4⟩ := hvisit hu.1 hv hb hbuf hc
      obtain ⟨i1, i2⟩ := ih (d := d) (by show Updates m N _ q3.cur rest; rw [v1]; exact hu.2) hput' v2
        (fun _ => by show G q3.cur q3.buf; rw [v1]; exact v3) (fun _ => by show q3.cur < N; rw [v1]; exact hu.1)
      exact ⟨i1, .cons (.get row q3 v4) i2⟩
    | close q1 hf =>
      have hnil : rest = [] := by
        cases rest with
        | nil => rfl
        | cons _ _ => exact hu.elim
      subst hnil
      cases hrest
      obtain ⟨h1, h2⟩ := hflush hf hb hbuf hc
      exact ⟨h1, .cons (.close q1 h2) (.nil q1)⟩

/-- A session on a table in a file, with data and weight columns, threads and cache: nothing fails, and when it is closed
the file holds a table again, that can be opened, changed and read in the same way. Every column has the blocks, and
returned the rows, of a program that keeps one block in memory. -/
theorem table_updated (hS : Setting kind e antOf rows N ants mt) (h : TableFile kind sq e antOf rows N ants mt man blocks)
    (hP : Program P antOf rows N man prog) {k : κ} {s : SState P}
    (hr : SReach (usesAnts kind) (codecs sq e antOf kind) (sinitial P k rows N man blocks prog) s) :
    s.cols.pc ≠ .failed ∧ s.cols.pc ≠ .unsupported ∧
    (s.cols.pc = .closed → ∃ blocks', TableFile kind sq e antOf rows N ants mt s.man blocks' ∧
      ∀ (i : Fin c) col, man.columns[i.val]? = some col →
        ∃ q, Spec.Runs (Recoded (usesAnts kind i) (codecs sq e antOf kind i rows col) col rows) rows
            (Spec.opened (blocks i)) (ops i prog) q ∧
          q.blocks = blocks' i ∧ q.outs = (s.cols.cols i).outs) := by
  obtain ⟨store, hd⟩ := h.disk
  have hr0 := hS.new.rowCount.1
  have hN := blocks_small hS
  obtain ⟨u1, u2, u3⟩ := session_update hP.threads hP.maxCache hS.nonempty hr0 hN hd hP.updates hr
  refine ⟨u1, u2, fun hcl => ?_⟩
  obtain ⟨store', blocks', g1, g2⟩ := u3 hcl
  refine ⟨blocks', ⟨?_, ⟨store', g1⟩, ?_⟩, g2⟩
  · obtain ⟨fops, b1, -⟩ := (session_inv hd.rowsPerBlock (by omega) hr).bytes
    have hn : s.man.nBlocks = man.nBlocks := by rw [g1.count, hd.count]
    rw [b1] at hn ⊢
    exact h.made.steps fops hn
  · intro i col b hcol hb
    obtain ⟨fops, b1, -⟩ := (session_inv hd.rowsPerBlock (by omega) hr).bytes
    rw [b1, (blockSteps_columns fops man).1] at hcol
    obtain ⟨q, q1, q2, -⟩ := g2 i col hcol
    have hk := hP.keeps hS h i col hcol
    rw [← q2]
    exact (runs_fit q1 (hP.updates i) hk.put hk.code hk.start (fun hx => absurd hx (by show ¬ noBlock < N; omega))
      (fun hx => by cases hx)).1 b hb

/-- Without antenna-frequency normalisation a session always comes to its end: at every moment it can be continued until
it is closed, and it is closed when no step is possible. -/
theorem update_closes (hS : Setting kind e antOf rows N ants mt) (h : TableFile kind sq e antOf rows N ants mt man blocks)
    (hP : Program P antOf rows N man prog) (hn : normOf mt.normalization ≠ .af) {k : κ} {s : SState P}
    (hr : SReach (usesAnts kind) (codecs sq e antOf kind) (sinitial P k rows N man blocks prog) s) :
    (∃ s', SReach (usesAnts kind) (codecs sq e antOf kind) s s' ∧ s'.cols.pc = .closed) ∧
    ((∀ l s', MLabel.real l = true → ¬ SStep (usesAnts kind) (codecs sq e antOf kind) s l s') → s.cols.pc = .closed) := by
  obtain ⟨store, hd⟩ := h.disk
  have hr0 := hS.new.rowCount.1
  have hcolumn : ∀ i : Fin c, ∃ col, man.columns[i.val]? = some col := fun i =>
    ⟨_, List.getElem?_eq_getElem (by rw [hd.columns]; exact i.isLt)⟩
  choose col hcol using hcolumn
  have hcols : ∀ (i : Fin c) col', man.columns[i.val]? = some col' → col' = col i := by
    intro i col' h'
    rw [hcol i] at h'
    injection h' with h'
    exact h'.symm
  refine session_closes (G := fun i => Fit (col i) rows antOf (kind i)) hP.threads hP.maxCache hS.nonempty hr0
    (blocks_small hS) hd hP.updates ?_ ?_ hr fun i _ => ⟨0, 0, ⟨0, fun _ => (codec sq e antOf (kind i) rows (col i)).zero⟩⟩
  · intro i col' h'
    obtain rfl := hcols i col' h'
    exact hP.keeps hS h i _ h'
  · intro i col' b r h' hb hf
    obtain rfl := hcols i col' h'
    refine fit_recodes (hS.column h.made h') hr0 hb (fun _ hx => hn ?_) hf
    obtain ⟨nRow, hm⟩ := h.made.columns
    rw [hm] at h'
    obtain ⟨-, -, -, -, -, -, g5, -⟩ := newTable_column hS.new h'
    rw [← g5]; exact hx

/-- A block to which nothing is written stays as it is. -/
theorem runs_untouched {V : Type} {E : Nat → Rows V → Rows V → Prop} {m : Nat} {ops : List (Col.Op V)} {q q' : Spec V}
    (hr : Spec.Runs E m q ops q') {b : Nat} (hq : q.changed = true → q.cur ≠ b)
    (hput : ∀ row v, Op.put row v ∈ ops → row / m ≠ b) : q'.blocks b = q.blocks b := by
  have hflush : ∀ {q q1 : Spec V}, Spec.Flush E q q1 → (q.changed = true → q.cur ≠ b) → q1.blocks b = q.blocks b ∧
      (q1.changed = false) := by
    intro q q1 hf hq
    cases hf with
    | clean h => exact ⟨rfl, h⟩
    | write r' h1 h2 => exact ⟨Function.update_of_ne (Ne.symm (hq h1)) _ _, rfl⟩
  have hvisit : ∀ {q q1 : Spec V} {b' : Nat}, Spec.Visit E b' q q1 → (q.changed = true → q.cur ≠ b) →
      q1.blocks b = q.blocks b ∧ q1.cur = b' ∧ (q1.changed = true → q1.cur ≠ b) := by
    intro q q1 b' hv hq
    cases hv with
    | same h => exact ⟨rfl, h.symm, hq⟩
    | other q2 _ hf =>
      obtain ⟨f1, f2⟩ := hflush hf hq
      exact ⟨f1, rfl, fun hx => by rw [show q2.changed = true from hx] at f2; cases f2⟩
  induction hr with
  | nil q => rfl
  | @cons q q1 q2 op rest hcall hrest ih =>
    have hput' : ∀ row v, Op.put row v ∈ rest → row / m ≠ b := fun row v hm => hput row v (List.mem_cons_of_mem _ hm)
    cases hcall with
    | put row v q3 hv =>
      obtain ⟨v1, v2, v3⟩ := hvisit hv hq
      rw [ih (fun _ => by show q3.cur ≠ b; rw [v2]; exact hput row v List.mem_cons_self) hput']
      exact v1
    | get row q3 hv =>
      obtain ⟨v1, v2, v3⟩ := hvisit hv hq
      rw [ih v3 hput']
      exact v1
    | close q1 hf =>
      obtain ⟨f1, f2⟩ := hflush hf hq
      rw [ih (fun hx => by rw [f2] at hx; cases hx) hput']
      exact f1

end

end Dysco.Session
