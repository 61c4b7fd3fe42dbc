import Verif.WorldProps

/-!
# A whole table is read back

All columns of a table, with data and weights, from the threads that write them to the rows that are read after the
file was closed and opened again.

The example is at the end of `WorldEnd.lean`.
-/

namespace Dysco.World
open Col Multi StMan End BytePacker Layout TimeBlock
open Prepare (Lib encoder)
open Tools (Distribution)

/-- The two types of columns, dyscodatacolumn.h and dyscoweightcolumn.h. -/
inductive Kind where
  | data
  | weight

/-- `DataType` of a column. -/
def Elem : Kind → Type
  | .data => Cx
  | .weight => Fl

/-- The codec of a column. -/
def codec (sq : Fl → Fl) (e : Stochastic.Encoder) (antOf : Nat → Nat × Nat) :
    (k : Kind) → Nat → Column → Codec (Elem k)
  | .data, rows, col => dataCodec sq e antOf rows col
  | .weight, _, col => weightCodec col

/-- The number, or zero. Not in the code. -/
def num : Fl → ℚ
  | .fin x => x
  | _ => 0

/-- The weight of a row, channel and polarisation. -/
def weightAt (nPol : Nat) (v : Nat → DataRow Fl) (row ch p : Nat) : ℚ := num ((v row).vis.get (ch * nPol + p))

/-- What is required of `R` rows of weights: no weight is negative or not finite. -/
structure FineWeights (col : Column) (R : Nat) (v : Nat → DataRow Fl) : Prop where
  pols : 1 ≤ col.nPol
  channels : 0 < col.nCh
  len : ∀ row, row < R → (v row).vis.len = col.nCh * col.nPol
  float : ∀ row j, row < R → j < col.nCh * col.nPol → ∃ x, (v row).vis.get j = .fin x ∧ 0 ≤ x ∧
    x < 2 ^ (128 : ℤ) ∧ Fl.Repr Fl.binary32 x

/-- What is required of `R` rows of data, in blocks of `rows` rows. Values may be infinite or NaN. Row and
row-frequency normalisation need finite values up to `2 ^ 126`; antenna-frequency normalisation needs values of moderate
size and antennas that also occur in the first block. -/
structure FineData (col : Column) (rows R ants : Nat) (antOf : Nat → Nat × Nat) (v : Nat → DataRow Cx) : Prop where
  len : ∀ row, row < R → (v row).vis.len = col.nPol * col.nCh
  float : AF.FloatBlock R (col.nPol * col.nCh) fun row => (v row).vis.get
  size : col.norm ≠ .af → ∀ row j m, row < R → j < col.nPol * col.nCh → Counted ((v row).vis.get j) m → m ≤ 2 ^ (126 : ℤ)
  af : col.norm = .af → 0 < col.nCh ∧ AF.AntennasBelow R ants antOf ∧
    AF.Moderate R (col.nPol * col.nCh) antOf (fun row => (v row).vis.get) ∧ ants ≤ 2 ^ 14 ∧ rows ≤ 2 ^ 24 ∧
    rows * col.nCh ≤ 2 ^ 24

/-- What is asked of the values of a column, by its kind. Not in the code. -/
def Fine (col : Column) (rows R ants : Nat) (antOf : Nat → Nat × Nat) : (k : Kind) → (Nat → DataRow (Elem k)) → Prop
  | .data, v => FineData col rows R ants antOf v
  | .weight, v => FineWeights col R v

/-- The weights read for a row: the smallest weight of the polarisations, with an error of half a step, where `M` is the
largest of these in the block. -/
def CloseWeights (col : Column) (rows R : Nat) (v : Nat → DataRow Fl) (row : Nat) (out : Buf Fl) : Prop :=
  ∃ (mn : Nat → Nat → ℚ) (M : ℚ),
    (∀ r ch, r < R → ch < col.nCh → Weight.IsMin col.nPol (weightAt col.nPol v r ch) (mn r ch)) ∧
    Weight.IsBlockMax rows col.nCh (fun j => mn (row / rows * rows + j)) M ∧
    out.len = col.nCh * col.nPol ∧ ∀ ch po, ch < col.nCh → po < col.nPol →
      ∃ y, out.get (ch * col.nPol + po) = .fin y ∧ 0 ≤ y ∧ y ≤ M ∧
        |y - mn row ch| ≤ M / (2 * ((2 : ℚ) ^ col.bits - 1)) + M * 2 ^ (-22 : ℤ) + 2 ^ (-149 : ℤ) ∧
        (mn row ch = M → y = mn row ch) ∧ (mn row ch = 0 → y = 0)

/-- The value `u` was stored and `y` is read. -/
def CloseValue (ε : ℚ → ℚ) (u y : Fl) : Prop :=
  ∀ a, u = .fin a → ∃ b, y = .fin b ∧ |b - a| ≤ ε a

/-- The visibilities read for a row of a column with row normalisation; `M` is the largest component of the row. -/
def CloseRow (gd : Grid) (col : Column) (v : Nat → DataRow Cx) (row : Nat) (out : Buf Cx) : Prop :=
  ∃ M, IsMax (col.nPol * col.nCh) (v row).vis.get M ∧ ∀ j, j < col.nPol * col.nCh → ∀ m, Counted ((v row).vis.get j) m →
    let ε : ℚ → ℚ := fun _ => M * (gd.ratio + 2 ^ (-22 : ℤ)) + (2 * M + gd.top + 1) * 2 ^ (-149 : ℤ)
    CloseValue ε ((v row).vis.get j).re (out.get j).re ∧ CloseValue ε ((v row).vis.get j).im (out.get j).im

/-- The same with row-frequency normalisation; `M` is the largest component of the row and polarisation. -/
def CloseRF (gd : Grid) (col : Column) (v : Nat → DataRow Cx) (row : Nat) (out : Buf Cx) : Prop :=
  ∀ j, j < col.nPol * col.nCh → ∀ m, Counted ((v row).vis.get j) m →
    ∃ M, RF.RowPolMax col.nPol col.nCh (fun r => (v r).vis.get) row (j % col.nPol) M ∧
    let ε : ℚ → ℚ := fun _ => M * (gd.ratio + 2 ^ (-21 : ℤ)) + (3 * M + 3 * gd.top + 1) * 2 ^ (-149 : ℤ)
    CloseValue ε ((v row).vis.get j).re (out.get j).re ∧ CloseValue ε ((v row).vis.get j).im (out.get j).im

/-- The same with antenna-frequency normalisation: cross-correlations with normal factors, if the fit of the block took
at most two million iterations. -/
def CloseAF (sq : Fl → Fl) (e : Stochastic.Encoder) (gd : Grid) (col : Column) (rows ants : Nat)
    (antOf : Nat → Nat × Nat) (v : Nat → DataRow Cx) (row : Nat) (out : Buf Cx) : Prop :=
  ∃ metaB N, (∃ dith data, TableBlock rows v (row / rows) data ∧
      Needs sq e rows col.nPol col.nCh ants dith data N metaB) ∧
    (N ≤ 2000000 → (antOf row).1 ≠ (antOf row).2 → ∀ ch po, ch < col.nCh → po < col.nPol → ∀ m g,
      let j := ch * col.nPol + po
      Counted ((v row).vis.get j) m → Factors metaB gd.top col.nPol col.nCh ants ch po (antOf row) g →
      let ε : ℚ → ℚ := fun a => AF.afBound gd.gap g a N
      CloseValue ε ((v row).vis.get j).re (out.get j).re ∧ CloseValue ε ((v row).vis.get j).im (out.get j).im)

/-- The visibilities read for a row. Components that are not finite become NaN. -/
def CloseData (sq : Fl → Fl) (e : Stochastic.Encoder) (gd : Grid) (col : Column) (rows ants : Nat)
    (antOf : Nat → Nat × Nat) (v : Nat → DataRow Cx) (row : Nat) (out : Buf Cx) : Prop :=
  out.len = col.nPol * col.nCh ∧
  (∀ j, j < col.nPol * col.nCh →
    (((v row).vis.get j).re.isFinite = false → (out.get j).re = .nan) ∧
    (((v row).vis.get j).im.isFinite = false → (out.get j).im = .nan)) ∧
  match col.norm with
  | .row => CloseRow gd col v row out
  | .rf => CloseRF gd col v row out
  | .af => CloseAF sq e gd col rows ants antOf v row out

/-- What is read for a row, by the kind of the column. Not in the code. -/
def Close (sq : Fl → Fl) (e : Stochastic.Encoder) (gd : Grid) (col : Column) (rows R ants : Nat)
    (antOf : Nat → Nat × Nat) : (k : Kind) → (Nat → DataRow (Elem k)) → Nat → Buf (Elem k) → Prop
  | .data, v => CloseData sq e gd col rows ants antOf v
  | .weight, v => CloseWeights col rows R v

/-- Rows of a column can be read in any order, into any buffers of the right size. -/
def ReadsBack {β : Type} (K : Codec β) (i : Nat) (col : Column) (rows R : Nat) (man : Man)
    (close : Nat → Buf β → Prop) : Prop :=
  ∀ (calls : List (Call β)) (buf : Block β), GoodCalls col rows R (col.nPol * col.nCh) calls →
    ∃ outs, getAll K i calls ⟨man, noBlock, buf⟩ = .ok outs ∧
      List.Forall₂ (fun x out => close x.row out) calls outs

theorem exists_isMin {n : Nat} (hn : 1 ≤ n) (f : Nat → ℚ) : ∃ m, Weight.IsMin n f m := by
  obtain ⟨p, hp, h⟩ := Finset.exists_min_image (Finset.range n) f ⟨0, by simp; omega⟩
  exact ⟨f p, ⟨p, by simpa using hp, rfl⟩, fun p' hp' => h p' (by simpa using hp')⟩

section
variable {κ : Type} {rows ants : Nat} {mt : Man} (h : NewTable rows ants mt)
    (nRow nRow' : Nat) (ops : List BlockOp) (m0 : Man) (hs : List.Forall₂ SameShape m0.columns mt.columns)
    (hlast : let m' := ops.foldl blockStep (newTable nRow rows ants mt)
      m'.nBlocks = 0 ∨ ∃ d, .write (m'.nBlocks - 1) (mt.columns.length - 1) d ∈ ops)
    {i : Nat} {col : Column} (hc : (newTable nRow rows ants mt).columns[i]? = some col) (hb : Supported col.bits)
include h hs hlast hc hb

theorem weights_read (hw : col.isData = false) {p : Params (DataRow Fl) κ} {q : Nat} {v : Nat → DataRow Fl}
    {s : State (DataRow Fl) κ p.threads} (hrun : Run p rows q v s)
    (himp : Implements (weightCodec col) col rows i ops s.writes) (hf : FineWeights col (q * rows) v) :
    ∃ r man, openFile nRow' m0 (ops.foldl blockStep (newTable nRow rows ants mt)).file = .ok r ∧
      prepare r = (man, true) ∧
      ReadsBack (weightCodec col) i col rows (q * rows) man (CloseWeights col rows (q * rows) v) := by
  have hr0 := h.rowCount.1
  have hW : WeightRows col.nPol col.nCh (q * rows) v (weightAt col.nPol v) := by
    intro row hrow
    refine ⟨hf.len row hrow, fun ch po hch hpo => ?_⟩
    obtain ⟨x, hx, -⟩ := hf.float row (ch * col.nPol + po) hrow (flat_lt hch hpo)
    unfold weightAt
    rw [hx]; rfl
  have hF : Weight.FloatWeights (q * rows) col.nCh col.nPol (weightAt col.nPol v) := by
    intro row ch po hrow hch hpo
    obtain ⟨x, hx, h2⟩ := hf.float row (ch * col.nPol + po) hrow (flat_lt hch hpo)
    unfold weightAt
    rw [hx]; exact h2
  choose mn hmn using fun row ch => exists_isMin hf.pols (weightAt col.nPol v row ch)
  obtain ⟨r, man, e1, e2, M, hM, g⟩ := weights_end_to_end h nRow nRow' ops m0 hs hlast hc hw hb hf.pols hf.channels hrun
    himp hW hF (fun row ch _ _ => hmn row ch)
  refine ⟨r, man, e1, e2, fun calls buf hcalls => ?_⟩
  obtain ⟨outs, o1, o2⟩ := g calls buf (by rw [Nat.mul_comm col.nCh]; exact hcalls)
  refine ⟨outs, o1, ?_⟩
  rw [List.forall₂_iff_get] at o2 ⊢
  refine ⟨o2.1, fun k hk hk' => ?_⟩
  have hrow := (hcalls _ (List.get_mem calls ⟨k, hk⟩)).1
  exact ⟨mn, M _, fun r ch _ _ => hmn r ch, hM _ ((Nat.div_lt_iff_lt_mul hr0).mpr hrow), o2.2 k hk hk'⟩

variable {q : Nat} {p : Params (DataRow Cx) κ} {v : Nat → DataRow Cx} {s : State (DataRow Cx) κ p.threads}
    (hrun : Run p rows q v s) {sq : Fl → Fl} (hsq : AF.SqrtMono sq) {e : Stochastic.Encoder}
    {gd : Grid} (hd : Quantised e col.bits gd) {antOf : Nat → Nat × Nat}
    (himp : Implements (dataCodec sq e antOf rows col) col rows i ops s.writes)
    (hants : ∀ r, r < q * rows → ((v r).antenna1, (v r).antenna2) = antOf r)
include hrun hsq hd himp hants

theorem data_read (hw : col.isData = true) (hf : FineData col rows (q * rows) ants antOf v) :
    ∃ r man, openFile nRow' m0 (ops.foldl blockStep (newTable nRow rows ants mt)).file = .ok r ∧
      prepare r = (man, true) ∧ ReadsBack (dataCodec sq e antOf rows col) i col rows (q * rows) man
        (CloseData sq e gd col rows ants antOf v) := by
  have hr0 := h.rowCount.1
  have hD : DataRows (col.nPol * col.nCh) (q * rows) v antOf fun row => (v row).vis.get :=
    ⟨hf.len, hants, fun _ _ _ _ => rfl⟩
  have hF : ∀ row j, row < q * rows → j < col.nPol * col.nCh → FloatVis ((v row).vis.get j) := by
    intro row j h1 h2 a ha
    obtain ⟨f1, f2⟩ := hf.float row j h1 h2
    rcases ha with ha | ha
    · exact f1 a ha
    · exact f2 a ha
  cases hnorm : col.norm with
  | row =>
    choose M hM using fun row => maxFold_spec (v row).vis.get (col.nPol * col.nCh)
    have hM2 : ∀ row, row < q * rows → M row ≤ 2 ^ (126 : ℤ) := by
      intro row hrow
      rcases (hM row).2.2.2 with h0 | ⟨j, hj, h0⟩
      · rw [h0]; positivity
      · exact hf.size (by rw [hnorm]; simp) row j _ hrow hj h0
    obtain ⟨r, man, e1, e2, g⟩ := prepared_row h nRow nRow' ops m0 hs hlast hc hw hnorm hb hd hrun himp hD hF
      (fun row _ => (hM row).2) hM2
    refine ⟨r, man, e1, e2, fun calls buf hcalls => ?_⟩
    obtain ⟨outs, o1, o2⟩ := g calls buf hcalls
    refine ⟨outs, o1, o2.imp ?_⟩
    rintro x out ⟨l1, l2⟩
    unfold CloseData
    rw [hnorm]
    exact ⟨l1, fun j hj => ⟨(l2 j hj).1, (l2 j hj).2.1⟩, M x.row, (hM x.row).2, fun j hj m hm =>
      ⟨fun a ha => by obtain ⟨y, y1, y2, -⟩ := ((l2 j hj).2.2 m hm a).1 ha; exact ⟨y, y1, y2⟩,
        fun a ha => by obtain ⟨y, y1, y2, -⟩ := ((l2 j hj).2.2 m hm a).2 ha; exact ⟨y, y1, y2⟩⟩⟩
  | rf =>
    choose M hM using fun row po => RF.rowPolMax_exists col.nPol col.nCh (fun r => (v r).vis.get) row po
    have hM2 : ∀ row po, row < q * rows → po < col.nPol → M row po ≤ 2 ^ (126 : ℤ) := by
      intro row po hrow hpo
      rcases (hM row po).1.2.2 with h0 | ⟨ch, hch, h0⟩
      · rw [h0]; positivity
      · exact hf.size (by rw [hnorm]; simp) row (ch * col.nPol + po) _ hrow
          (by rw [Nat.mul_comm col.nPol]; exact flat_lt hch hpo) h0
    obtain ⟨r, man, e1, e2, g⟩ := prepared_rf h nRow nRow' ops m0 hs hlast hc hw hnorm hb hd hrun himp hD hF
      (fun row po _ _ => (hM row po).1) hM2 (K := fun _ _ => 1) (fun _ _ _ _ => le_refl _)
      (fun row j m _ hj hm => by rw [one_mul]; exact (hM row (j % col.nPol)).1.le hj hm) (fun _ _ _ _ => .inl rfl)
    refine ⟨r, man, e1, e2, fun calls buf hcalls => ?_⟩
    obtain ⟨outs, o1, o2⟩ := g calls buf hcalls
    refine ⟨outs, o1, o2.imp ?_⟩
    rintro x out ⟨l1, l2⟩
    unfold CloseData
    rw [hnorm]
    refine ⟨l1, fun j hj => ⟨(l2 j hj).1, (l2 j hj).2.1⟩, fun j hj m hm => ⟨M x.row (j % col.nPol), (hM _ _).1,
      fun a ha => ?_, fun a ha => ?_⟩⟩
    · obtain ⟨y, y1, y2, -⟩ := ((l2 j hj).2.2 m hm a).1 ha
      exact ⟨y, y1, by rwa [mul_one] at y2⟩
    · obtain ⟨y, y1, y2, -⟩ := ((l2 j hj).2.2 m hm a).2 ha
      exact ⟨y, y1, by rwa [mul_one] at y2⟩
  | af =>
    obtain ⟨a1, a2, a3, a4, a5, a6⟩ := hf.af hnorm
    obtain ⟨r, man, e1, e2, metaB, N, g1, g⟩ := prepared_af h nRow nRow' ops m0 hs hlast hc hw hnorm hb a1 hsq hd hrun
      himp hD hf.float a2 a3 a4 a5 a6
    refine ⟨r, man, e1, e2, fun calls buf hcalls => ?_⟩
    obtain ⟨outs, o1, o2⟩ := g calls buf hcalls
    refine ⟨outs, o1, ?_⟩
    rw [List.forall₂_iff_get] at o2 ⊢
    refine ⟨o2.1, fun k hk hk' => ?_⟩
    have hrow := (hcalls _ (List.get_mem calls ⟨k, hk⟩)).1
    obtain ⟨l1, l2⟩ := o2.2 k hk hk'
    have hsplit : ∀ j, j < col.nPol * col.nCh → ∃ ch po, ch < col.nCh ∧ po < col.nPol ∧ j = ch * col.nPol + po := by
      intro j hj
      have hpol : 0 < col.nPol := Nat.pos_of_ne_zero (by rintro h0; simp [h0] at hj)
      exact ⟨j / col.nPol, j % col.nPol, Nat.div_lt_of_lt_mul hj, Nat.mod_lt _ hpol, (Nat.div_add_mod' j col.nPol).symm⟩
    unfold CloseData
    rw [hnorm]
    refine ⟨l1, fun j hj => ?_, metaB _, N _, g1 _ ((Nat.div_lt_iff_lt_mul hr0).mpr hrow), ?_⟩
    · obtain ⟨ch, po, h1, h2, rfl⟩ := hsplit j hj
      exact ⟨(l2 ch po h1 h2).1, (l2 ch po h1 h2).2.1⟩
    · intro hN hx ch po h1 h2 m gg j hm hfac
      have := (l2 ch po h1 h2).2.2 hN hx m gg hm hfac
      exact ⟨fun a ha => (this a).1 ha, fun a ha => (this a).2 ha⟩

end

/-- The column is a data column. Not in the code. -/
def Kind.isData : Kind → Bool
  | .data => true
  | .weight => false

theorem column_read {κ : Type} {rows ants : Nat} {mt : Man} (h : NewTable rows ants mt)
    (nRow nRow' : Nat) (ops : List BlockOp) (m0 : Man) (hs : List.Forall₂ SameShape m0.columns mt.columns)
    (hlast : let m' := ops.foldl blockStep (newTable nRow rows ants mt)
      m'.nBlocks = 0 ∨ ∃ d, .write (m'.nBlocks - 1) (mt.columns.length - 1) d ∈ ops)
    {sq : Fl → Fl} (hsq : AF.SqrtMono sq) {e : Stochastic.Encoder} {gd : Grid} (hd : Quantised e mt.dataBitCount gd)
    (hdb : Supported mt.dataBitCount) (hwb : Supported mt.weightBitCount) {i : Nat} {col : Column}
    (hc : (newTable nRow rows ants mt).columns[i]? = some col) (k : Kind) (hk : col.isData = k.isData)
    {q : Nat} {p : Params (DataRow (Elem k)) κ} {v : Nat → DataRow (Elem k)} {s : State (DataRow (Elem k)) κ p.threads}
    (hrun : Run p rows q v s) {antOf : Nat → Nat × Nat}
    (himp : Implements (codec sq e antOf k rows col) col rows i ops s.writes)
    (hants : ∀ r, r < q * rows → ((v r).antenna1, (v r).antenna2) = antOf r)
    (hf : Fine col rows (q * rows) ants antOf k v) :
    ∃ r man, openFile nRow' m0 (ops.foldl blockStep (newTable nRow rows ants mt)).file = .ok r ∧
      prepare r = (man, true) ∧ ReadsBack (codec sq e antOf k rows col) i col rows (q * rows) man
        (Close sq e gd col rows (q * rows) ants antOf k v) := by
  obtain ⟨c0, -, n1, -, -, n4, -⟩ := newTable_column h hc
  cases k with
  | data =>
    have hb : col.bits = mt.dataBitCount := by rw [n4, ← n1, hk]; rfl
    exact data_read h nRow nRow' ops m0 hs hlast hc (by rw [hb]; exact hdb) hrun hsq (by rw [hb]; exact hd) himp hants hk hf
  | weight =>
    have hb : col.bits = mt.weightBitCount := by rw [n4, ← n1, hk]; rfl
    exact weights_read h nRow nRow' ops m0 hs hlast hc (by rw [hb]; exact hwb) hk hrun himp hf

/-- A whole table, with any number of data and weight columns that are all written by their own threads: after the table
is closed, the file can be opened and every row of every column is read back, with the errors of the compression. The
table may have more rows than the `q` blocks that are read; the last block may be incomplete. -/
theorem table_end_to_end {κ : Type} {c : Nat} {kind : Fin c → Kind}
    {P : (i : Fin c) → Params (DataRow (Elem (kind i))) κ} {rows R q ants : Nat}
    {v : (i : Fin c) → Nat → DataRow (Elem (kind i))} {antOf : Nat → Nat × Nat}
    {prog : List (MOp fun i => DataRow (Elem (kind i)))} (hT : WholeTable P rows R v antOf prog) (hq : 0 < q)
    (hqR : q * rows ≤ R)
    (hants : AntennaCount rows antOf ants) {mt : Man} (h : NewTable rows ants mt) (hc : mt.columns.length = c)
    (hc0 : 0 < c) (hk : ∀ (i : Fin c) c0, mt.columns[i.val]? = some c0 → c0.isData = (kind i).isData)
    (hdb : Supported mt.dataBitCount) (hwb : Supported mt.weightBitCount)
    {sq : Fl → Fl} (hsq : AF.SqrtMono sq) {e : Stochastic.Encoder} {gd : Grid} (hd : Quantised e mt.dataBitCount gd)
    {nRow : Nat} (hf : ∀ (i : Fin c) col, (newTable nRow rows ants mt).columns[i.val]? = some col →
      Fine col rows (q * rows) ants antOf (kind i) (v i))
    {k : κ} {w : WState P}
    (hw : WReach (fun i => codec sq e antOf (kind i)) (winitial P k nRow mt prog) w) (hcl : w.cols.pc = .closed)
    (nRow' : Nat) (m0 : Man) (hs : List.Forall₂ SameShape m0.columns mt.columns) :
    ∃ r man, openFile nRow' m0 w.man.file = .ok r ∧ prepare r = (man, true) ∧
      ∀ i : Fin c, ∃ col, (newTable nRow rows ants mt).columns[i.val]? = some col ∧
        ReadsBack (codec sq e antOf (kind i) rows col) i col rows (q * rows) man
          (Close sq e gd col rows (q * rows) ants antOf (kind i) (v i)) := by
  obtain ⟨ops, hm, hlast, hcols⟩ := world_closed hT hants h hc hc0 hw hcl
  rw [hm] at hlast
  obtain ⟨-, -, f3, -⟩ := newTable_fields (nRow := nRow) h
  have hlen : (newTable nRow rows ants mt).columns.length = c := by
    rw [f3, (layout_spec h.rowCount.2 h.antCount (configured mt mt.columns) 0 (by simpa using h.total)).2.2.1, ← hc]
    simp [configured]
  have key : ∀ i : Fin c, ∃ r man, openFile nRow' m0 w.man.file = .ok r ∧ prepare r = (man, true) ∧
      ∃ col, (newTable nRow rows ants mt).columns[i.val]? = some col ∧
        ReadsBack (codec sq e antOf (kind i) rows col) i col rows (q * rows) man
          (Close sq e gd col rows (q * rows) ants antOf (kind i) (v i)) := by
    intro i
    have hcol : (newTable nRow rows ants mt).columns[i.val]? = some _ :=
      List.getElem?_eq_getElem (by rw [hlen]; exact i.isLt)
    obtain ⟨s, hrun, himp⟩ := hcols i
    obtain ⟨c0, g0, g1, -⟩ := newTable_column h hcol
    obtain ⟨r, man, e1, e2, e3⟩ := column_read h nRow nRow' ops m0 hs hlast hsq hd hdb hwb hcol (kind i)
      (g1.trans (hk i c0 g0)) ⟨hq, R, hqR, hrun⟩ (himp _ hcol) (fun r hr => hT.ants i r (by omega)) (hf i _ hcol)
    exact ⟨r, man, by rw [hm]; exact e1, e2, _, hcol, e3⟩
  obtain ⟨r, man, e1, e2, -⟩ := key ⟨0, hc0⟩
  refine ⟨r, man, e1, e2, fun i => ?_⟩
  obtain ⟨r', man', e1', e2', g⟩ := key i
  rw [e1] at e1'
  cases e1'
  rw [e2] at e2'
  cases e2'
  exact g

end Dysco.World
