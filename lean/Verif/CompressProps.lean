import Verif.CompressProgram
import Verif.CompressWorld
import Verif.CheckRegular

/-!
# dscompress from the measurement set to the values that are read

The program is run on a measurement set that passes its check. The rows that it puts into the new columns are then handled
by the threads of the columns, in any schedule, and by the manager that it made.

The examples are in `CompressSample.lean`.
-/

namespace Dysco.World
open Col Multi StMan End BytePacker Layout Prepare Tools

section
variable {κ : Type} {c : Nat} {kind : Fin c → Kind}
  {P : (i : Fin c) → Params (DataRow (Elem (kind i))) κ} {rows q ants : Nat}
  {v : (i : Fin c) → Nat → DataRow (Elem (kind i))} {antOf : Nat → Nat × Nat}
  {prog : List (MOp fun i => DataRow (Elem (kind i)))} (hT : WholeTable P rows (q * rows) v antOf prog)
  (hants : AntennaCount rows antOf ants) {mt : Man} (h : NewTable rows ants mt) (hc : mt.columns.length = c)
  (hc0 : 0 < c) (hk : ∀ (i : Fin c) c0, mt.columns[i.val]? = some c0 → c0.isData = (kind i).isData)
  (hdb : Supported mt.dataBitCount) (hwb : Supported mt.weightBitCount)
  {sq : Fl → Fl} (hsq : AF.SqrtMono sq) {libs : Libs} {fuel : Nat} {e0 d0 : Nat → Fl} {e : Stochastic.Encoder}
  (hen : quantiser libs fuel mt e0 d0 = some e) {gd : Grid} (hd : Quantised e mt.dataBitCount gd)
  {nRow : Nat} (hf : ∀ (i : Fin c) col, (newTable nRow rows ants mt).columns[i.val]? = some col →
    Fine col rows (q * rows) ants antOf (kind i) (v i))
  {m1 : Man} (hs : SameLayout m1 (prepare (create nRow mt)).1)
  {k : κ} {w : WState P}
  (hw : WReach (fun i => codec sq e antOf (kind i)) ⟨minitial P k 0 (fun _ _ => none) 0 prog, m1⟩ w)
include hT hants h hc hc0 hk hdb hwb hsq hen hd hf hs hw

/-- `table_by_settings` for another manager with the same layout. -/
theorem table_end_to_end_same (hcl : w.cols.pc = .closed)
    (nRow' : Nat) (m0 : Man) (hsh : List.Forall₂ SameShape m0.columns mt.columns) :
    ∃ r man, openFile nRow' m0 w.man.file = .ok r ∧ prepare r = (man, true) ∧ SameSettings man mt ∧
      ∀ e0' d0', ∃ e', quantiser libs fuel man e0' d0' = some e' ∧
        ∀ i : Fin c, ∃ col, man.columns[i.val]? = some col ∧ (newTable nRow rows ants mt).columns[i.val]? = some col ∧
          ReadsBack (codec sq e' antOf (kind i) rows col) i col rows (q * rows) man
            (Close sq e gd col rows (q * rows) ants antOf (kind i) (v i)) := by
  obtain ⟨w2, r2, t2⟩ := twins_reach hT.threads hs (twins_start k prog m1 _) hw
  have hcl2 : w2.cols.pc = .closed := by rw [← t2.cols]; exact hcl
  obtain ⟨-, -, -, hrpb⟩ := table_run hT t2.reach hcl ⟨0, hc0⟩
  have hm : w.man = w2.man := by
    rcases t2.man with ⟨a | a, -, -⟩ | ⟨-, -, a⟩
    · exact absurd (hrpb.symm.trans a) (by have := hT.pos; omega)
    · rcases a with ⟨_, _, _, _, a⟩ | ⟨_, _, _, a⟩ <;> (rw [hcl] at a; cases a)
    · exact a
  rw [hm]
  have hq : 0 < q := Nat.pos_of_ne_zero (by rintro rfl; have := hT.more; omega)
  exact table_by_settings hT hq (Nat.le_refl _) hants h hc hc0 hk hdb hwb hsq hen hd hf r2 hcl2 nRow' m0 hsh

omit hen in
/-- `table_closes` for another manager with the same layout. -/
theorem table_closes_same (junk : (i : Fin c) → Nat → DataRow (Elem (kind i))) :
    (∃ w', WReach (fun i => codec sq e antOf (kind i)) w w' ∧ w'.cols.pc = .closed) ∧
    ((∀ l w', MLabel.real l = true → ¬ WStep (fun i => codec sq e antOf (kind i)) w l w') → w.cols.pc = .closed) := by
  obtain ⟨w2, r2, t2⟩ := twins_reach hT.threads hs (twins_start k prog m1 _) hw
  obtain ⟨⟨w2', a1, a2⟩, b⟩ := table_closes hT hants h hc hc0 hk hdb hwb hsq hd hf r2 junk
  constructor
  · obtain ⟨w', r, t⟩ := twins_reach hT.threads hs.symm t2.symm a1
    exact ⟨w', r, by rw [← t.cols]; exact a2⟩
  · intro hno
    rw [t2.cols]
    refine b fun l w2' hl hst => ?_
    obtain ⟨w', s, -⟩ := twins_step hT.threads hs.symm t2.symm hst
    exact hno l w' hl s

end

end Dysco.World

namespace Dysco.Compress
open Tools World Col Multi StMan End BytePacker Layout Prepare

/-! ## The rows -/

/-- Times, fields and data descriptions are compared by `!=`. -/
theorem differs_equality : IsEquality differs := by
  have hs : ∀ a b, Fl.eq a b = true → Fl.eq b a = true := by
    intro a b h
    cases a <;> cases b <;> simp_all [Fl.eq]
  have ht : ∀ a b c, Fl.eq a b = true → Fl.eq b c = true → Fl.eq a c = true := by
    intro a b c h h'
    cases a <;> cases b <;> cases c <;> simp_all [Fl.eq]
  refine ⟨fun a b h => ?_, fun a b c h h' => ?_⟩
  · simp only [differs, Bool.or_eq_false_iff, Bool.not_eq_false', decide_eq_false_iff_not, not_not] at h ⊢
    exact ⟨⟨hs _ _ h.1.1, h.1.2.symm⟩, h.2.symm⟩
  · simp only [differs, Bool.or_eq_false_iff, Bool.not_eq_false', decide_eq_false_iff_not, not_not] at h h' ⊢
    exact ⟨⟨ht _ _ _ h.1.1 h'.1.1, h.1.2.trans h'.1.2⟩, h.2.trans h'.2⟩

/-- Time, field and data description of a row. Not in the code. -/
def MS.key (M : MS) (r : Nat) : Key := (M.time r, M.field r, M.desc r)

/-- A list of values as a buffer. -/
def buf {β : Type} (x0 : β) (l : List β) : Buf β := ⟨l.length, fun j => l.getD j x0⟩

/-- The kind of a column. -/
def kindAt (columns : List Arg) (i : Fin columns.length) : World.Kind :=
  if columns[i] = weightName then .weight else .data

/-- What `DyscoStMan` gets for a row: the array and the antennas, dyscodatacolumn.cc, threadeddyscocolumn.cc:181-211. -/
def rowOf (ant : Nat × Nat) : (k : World.Kind) → Cell → DataRow (Elem k)
  | .data, x => ⟨ant.1, ant.2, buf nanCx x.complexes⟩
  | .weight, x => ⟨ant.1, ant.2, buf .nan x.floats⟩

/-- A column with its settings. -/
def settled (o : Options Nat Nat) (nPol nCh : Nat) (name : Arg) : StMan.Column :=
  { newColumn nPol nCh name with
    bits := if name = weightName then o.bitsPerWeight else o.bitsPerFloat
    norm := normOf (normalizationNumber o.normalization) }

theorem whole_settled (o : Options Nat Nat) (nPol nCh : Nat) (columns : List Arg) :
    configured (whole o nPol nCh columns) (whole o nPol nCh columns).columns = columns.map (settled o nPol nCh) := by
  obtain ⟨-, -, f3, f4, -, f6, -⟩ := manager_fields o
  unfold configured whole
  simp only [List.map_map]
  refine List.map_congr_left fun c _ => ?_
  by_cases hw : c = weightName <;>
    simp [settled, newColumn, hw, f3, f4, f6]

theorem fine_congr {c c' : StMan.Column} (h1 : c.nPol = c'.nPol) (h2 : c.nCh = c'.nCh) (h3 : c.norm = c'.norm)
    {rows R ants : Nat} {antOf : Nat → Nat × Nat} {k : World.Kind} {v : Nat → DataRow (Elem k)}
    (h : Fine c rows R ants antOf k v) : Fine c' rows R ants antOf k v := by
  cases k with
  | data =>
    obtain ⟨a, b, d, e⟩ := h
    rw [h1, h2] at a b e
    rw [h1, h2, h3] at d
    rw [h3] at e
    exact ⟨a, b, d, e⟩
  | weight =>
    obtain ⟨a, b, d, e⟩ := h
    rw [h1] at a
    rw [h2] at b
    rw [h1, h2] at d e
    exact ⟨a, b, d, e⟩

theorem close_congr {c c' : StMan.Column} (h1 : c.nPol = c'.nPol) (h2 : c.nCh = c'.nCh) (h3 : c.norm = c'.norm)
    (h4 : c.bits = c'.bits) {sq : Fl → Fl} {e : Stochastic.Encoder} {gd : Grid} {rows R ants : Nat}
    {antOf : Nat → Nat × Nat} {k : World.Kind} {v : Nat → DataRow (Elem k)} {row : Nat} {out : Buf (Elem k)}
    (h : Close sq e gd c rows R ants antOf k v row out) : Close sq e gd c' rows R ants antOf k v row out := by
  cases k with
  | data =>
    simp only [Close, CloseData, CloseRow, CloseRF, CloseAF] at h ⊢
    rw [h1, h2, h3] at h
    exact h
  | weight =>
    simp only [Close, CloseWeights] at h ⊢
    rw [h1, h2, h4] at h
    exact h

/-- The calls of `put` of a column, as the column gets them. -/
def calls (M : MS) (k : World.Kind) (puts : List (Nat × Cell)) : List (Col.Op (DataRow (Elem k))) :=
  puts.map (fun p => .put p.1 (rowOf (M.ant p.1) k p.2)) ++ [.close]

theorem calls_whole {M : MS} {k : World.Kind} {x : Nat → Cell} (m n : Nat) :
    Whole m (fun r => rowOf (M.ant r) k (x r)) n 0 (calls M k ((List.range n).map fun r => (r, x r))) := by
  have key : ∀ d r, r + d = n →
      Whole m (fun r => rowOf (M.ant r) k (x r)) n r (calls M k ((List.range' r d).map fun r => (r, x r))) := by
    intro d
    induction d with
    | zero =>
      intro r h
      simpa [calls, Whole] using h
    | succ d ih =>
      intro r h
      have := ih (r + 1) (by omega)
      simp only [calls, List.range'_succ, List.map_cons, List.cons_append, Whole] at this ⊢
      exact ⟨trivial, trivial, by omega, this⟩
  rw [List.range_eq_range']
  exact key n 0 (by omega)

/-- The settings of the program and the sizes of the table are ones that the file format can hold. -/
structure Fits (o : Options Nat Nat) (nPol nCh : Nat) (columns : List Arg) (rows ants : Nat) : Prop where
  data : Supported o.bitsPerFloat
  weight : Supported o.bitsPerWeight
  truncation : o.distribution = .truncatedGaussian → o.truncation < 2 ^ 64
  pols : 0 < nPol
  channels : 0 < nCh
  columnCount : 62 + 24 * columns.length < 2 ^ 32
  rowCount : rows < 2 ^ 32
  antCount : ants < 2 ^ 32
  total : totalSize rows ants (columns.map (settled o nPol nCh)) < 2 ^ 32

theorem fits_newTable {o : Options Nat Nat} {nPol nCh : Nat} {columns : List Arg} {rows ants : Nat}
    (h : Fits o nPol nCh columns rows ants) (hr : 0 < rows) : NewTable rows ants (whole o nPol nCh columns) := by
  obtain ⟨f1, -, f3, f4, f5, f6, f7, f8, f9⟩ := manager_fields o
  have hb := supported_bounds h.data
  have hw := supported_bounds h.weight
  refine ⟨⟨?_, ?_, ?_, ?_, ?_, ?_⟩, f1, ⟨hr, h.rowCount⟩, h.antCount, ?_, ?_, ?_⟩
  · show 0 < (manager o).dataBitCount ∧ (manager o).dataBitCount < 256
    rw [f3]; omega
  · show 0 < (manager o).weightBitCount ∧ (manager o).weightBitCount < 256
    rw [f4]; omega
  · show (manager o).distribution < 256
    rw [f5]; cases o.distribution <;> decide
  · show (manager o).normalization < 256
    rw [f6]; cases o.normalization <;> decide
  · show (manager o).studentTNu < 2 ^ 64
    rw [f7]; split <;> decide
  · show (manager o).distributionTruncation < 2 ^ 64
    rw [f8]
    split
    · rename_i hd
      exact h.truncation hd
    · decide
  · show 52 + (manager o).name.length + 24 * (columns.map (newColumn nPol nCh)).length < 2 ^ 32
    rw [f9, List.length_map]
    exact h.columnCount
  · rw [whole_settled]; exact h.total
  · rw [whole_settled]
    intro c hc
    obtain ⟨name, -, rfl⟩ := List.mem_map.mp hc
    have hp1 := h.pols
    have hp2 := h.channels
    have hp3 := Nat.mul_pos hr hp1
    unfold Column.calcSize blockSize Column.metaCount
    by_cases hn : name = weightName
    · simp [settled, newColumn, hn, Weight.metaDataFloatCount]
    · have hd : (settled o nPol nCh name).isData = true := by simp [settled, newColumn, hn]
      rw [if_pos hd]
      have : 0 < dataMetaCount (settled o nPol nCh name).norm rows nPol nCh ants := by
        unfold dataMetaCount
        cases (settled o nPol nCh name).norm
        · simp only [AF.metaDataCount]
          positivity
        · simp only [RF.metaDataCount]
          positivity
        · simp only [Row.metaDataCount]
          omega
      show 0 < 4 * dataMetaCount (settled o nPol nCh name).norm rows nPol nCh ants + _
      omega

/-- The columns of the new table as their threads see them: at least one thread each, and the times, fields and data
descriptions of the measurement set. -/
structure Clients {c : Nat} {V : Fin c → Type} (P : (i : Fin c) → Params (V i) Key) (M : MS) (n : Nat) : Prop where
  threads : ∀ i, 0 < (P i).threads
  maxCache : ∀ i, 1 ≤ (P i).maxCache
  key : ∀ i r, r < n → (P i).key r = M.key r
  differs : ∀ i, (P i).differs = differs

theorem rows_length (M : MS) (n : Nat) : (M.rows n).length = n := by simp [MS.rows]

theorem rows_key (M : MS) (n i : Nat) (h : i < (M.rows n).length) : (M.rows n)[i].key = M.key i := by
  simp [MS.rows, MS.key]

/-- The rows that a column gets. -/
def given (M : MS) (columns : List Arg) (i : Fin columns.length) (r : Nat) : DataRow (Elem (kindAt columns i)) :=
  rowOf (M.ant r) (kindAt columns i) ((M.flagged columns).cell columns[i] r)

theorem rowOf_ants (ant : Nat × Nat) (k : World.Kind) (x : Cell) :
    ((rowOf ant k x).antenna1, (rowOf ant k x).antenna2) = ant := by
  cases k <;> rfl

theorem regular_whole {columns : List Arg} {P : (i : Fin columns.length) → Params (DataRow (Elem (kindAt columns i))) Key}
    {M : MS} {rows q : Nat} (hP : Clients P M (q * rows)) (hreg : Regular differs (M.rows (q * rows)) rows) (hq : 1 < q)
    (hsmall : q * rows ≤ noBlock) {prog : List (MOp fun i => DataRow (Elem (kindAt columns i)))}
    (hprog : ∀ i, ops i prog = calls M (kindAt columns i)
      ((List.range (q * rows)).map fun r => (r, (M.flagged columns).cell columns[i] r))) :
    WholeTable P rows (q * rows) (given M columns) M.ant prog := by
  have hpos := hreg.pos
  have hmore : rows < q * rows := by
    have := Nat.mul_le_mul_right rows hq
    omega
  have hlen := rows_length M (q * rows)
  refine ⟨hP.threads, hP.maxCache, hpos, hmore, hsmall, fun i r h0 hr => ?_, fun i => ?_, fun i r _ => rowOf_ants _ _ _,
    fun i => ?_⟩
  · rw [hP.differs, hP.key i r (by omega), hP.key i 0 (by omega)]
    have := regular_same hreg differs_equality (by omega) r (by omega) h0 hr
    rwa [rows_key, rows_key] at this
  · rw [hP.differs, hP.key i rows hmore, hP.key i 0 (by omega)]
    have := regular_differs hreg differs_equality (by omega)
    rwa [rows_key, rows_key] at this
  · rw [hprog i]
    exact calls_whole (M := M) (k := kindAt columns i) (x := (M.flagged columns).cell columns[i]) rows (q * rows)

theorem kind_isData (o : Options Nat Nat) (nPol nCh : Nat) (columns : List Arg) (i : Fin columns.length) (c0 : StMan.Column)
    (h : (whole o nPol nCh columns).columns[i.val]? = some c0) :
    c0 = newColumn nPol nCh columns[i] ∧ c0.isData = (kindAt columns i).isData := by
  have h' : (columns.map (newColumn nPol nCh))[i.val]? = some c0 := h
  rw [List.getElem?_map, List.getElem?_eq_getElem i.isLt] at h'
  injection h' with h'
  subst h'
  refine ⟨rfl, ?_⟩
  unfold kindAt
  by_cases hw : columns[i] = weightName
  · rw [if_pos hw]
    show decide (columns[i] ≠ weightName) = false
    simp [hw]
  · rw [if_neg hw]
    show decide (columns[i] ≠ weightName) = true
    simp only [ne_eq, hw, not_false_eq_true, decide_true]

/-- The flags of a data column: a flagged sample is read as NaN. -/
def FlagsRead (M : MS) (row : Nat) : (k : World.Kind) → Buf (Elem k) → Prop
  | .data, out => ∀ j, (M.flags row)[j]? = some true → j < out.len → (out.get j).re = .nan ∧ (out.get j).im = .nan
  | .weight, _ => True

theorem masked_get {f : List Bool} {d : List Cx} {j : Nat} (hf : f[j]? = some true) : (masked f d).getD j nanCx = nanCx := by
  unfold masked
  rw [List.getD_eq_getElem?_getD, List.getElem?_zipWith, hf]
  cases d[j]? <;> rfl

theorem flags_read {M : MS} {columns : List Arg} {i : Fin columns.length} {col : StMan.Column}
    {sq : Fl → Fl} {e : Stochastic.Encoder} {gd : Grid} {rows R ants row : Nat}
    {antOf : Nat → Nat × Nat} {out : Buf (Elem (kindAt columns i))}
    (h : Close sq e gd col rows R ants antOf (kindAt columns i) (given M columns i) row out) :
    FlagsRead M row (kindAt columns i) out := by
  by_cases hw : columns[i] = weightName
  · have hk : kindAt columns i = .weight := if_pos hw
    revert out
    generalize given M columns i = v
    revert v
    rw [hk]
    intro v out _
    trivial
  · have hk : kindAt columns i = .data := if_neg hw
    have hv : ∀ j, (M.flags row)[j]? = some true →
        (rowOf (M.ant row) .data ((M.flagged columns).cell columns[i] row)).vis.get j = nanCx := by
      intro j hj
      show (((M.flagged columns).cell columns[i] row).complexes).getD j nanCx = nanCx
      unfold MS.cell
      rw [if_neg hw]
      show ((M.flagged columns).data columns[i] row).getD j nanCx = nanCx
      unfold MS.flagged
      simp only
      have hmem : columns[i] ∈ columns := List.getElem_mem _
      rw [if_pos hmem]
      exact masked_get hj
    have hg : given M columns i = fun r => rowOf (M.ant r) (kindAt columns i) ((M.flagged columns).cell columns[i] r) := rfl
    rw [hg] at h
    revert out
    rw [hk]
    intro out h j hj hl
    obtain ⟨h1, h2, -⟩ := (h : CloseData sq e gd col rows ants antOf
      (fun r => rowOf (M.ant r) .data ((M.flagged columns).cell columns[i] r)) row out)
    have := h2 j (by rw [← h1]; exact hl)
    rw [hv j hj] at this
    exact ⟨this.1 rfl, this.2 rfl⟩

/-- The library functions for the options: the degrees of freedom are 1 (dscompress.cc:350-356). -/
def _root_.Dysco.Prepare.Libs.with_ (libs : Libs) (o : Options Nat Nat) : Lib :=
  ⟨libs.P, libs.p0 o.truncation, libs.Q, libs.T oneBits⟩

theorem distribution_number (d : Distribution) : distributionAt (distributionNumber d) = some d := by cases d <;> rfl

/-- The quantiser that the manager makes is the one that the options ask for. -/
theorem options_quantiser {o : Options Nat Nat} {m : Man} (h : SameSettings m (manager o)) (libs : Libs) (fuel : Nat)
    (e0 d0 : Nat → Fl) :
    quantiser libs fuel m e0 d0 = encoder (libs.with_ o) fuel o.distribution o.bitsPerFloat e0 d0 := by
  obtain ⟨-, -, f3, -, f5, -, f7, f8, -⟩ := manager_fields o
  rw [quantiser_congr h]
  unfold quantiser
  rw [f5, distribution_number, f3]
  show encoder (libs.at_ (manager o)) fuel o.distribution o.bitsPerFloat e0 d0 = _
  unfold encoder
  have : value (libs.at_ (manager o)) fuel o.distribution = value (libs.with_ o) fuel o.distribution := by
    unfold Libs.at_ Libs.with_
    rw [f7, f8]
    cases o.distribution <;> rfl
  rw [this]

/-- The whole way: `dscompress` runs on a measurement set that passes its check, makes its manager, and puts the rows; for
every schedule of the threads of the columns the table can be closed, never gets stuck before it is closed, and its file
can be opened and gives back every row: within the errors of the compression, and flagged samples as NaN. -/
theorem dscompress_end_to_end {view : View Cell} (hv : Faithful view) {columns : List Arg} {t : Tab} {M : MS}
    (h : Input t columns M) (hne : columns ≠ []) (hf : M.Flags columns t.nrow)
    (hc : check differs (M.rows t.nrow) = .ok ()) (hsmall : t.nrow ≤ noBlock) :
    ∃ t', Runs (dscompress view columns) t () t' ∧ Output t t' columns (M.flagged columns).cell ∧
    ∃ rows q, Regular differs (M.rows t.nrow) rows ∧ t.nrow = q * rows ∧
    ∀ {o : Options Nat Nat} {nPol nCh ants : Nat}, 1 < q → AntennaCount rows M.ant ants → Fits o nPol nCh columns rows ants →
    ∃ m, createColumns o t.nrow nPol nCh columns = (m, true) ∧ SameSettings m (manager o) ∧
    (∀ libs fuel e0 d0, quantiser libs fuel m e0 d0 =
      encoder (libs.with_ o) fuel o.distribution o.bitsPerFloat e0 d0) ∧
    ∀ {sq : Fl → Fl} {libs : Libs} {fuel : Nat} {e0 d0 : Nat → Fl} {e : Stochastic.Encoder} {gd : Grid}, AF.SqrtMono sq →
      quantiser libs fuel m e0 d0 = some e → Quantised e o.bitsPerFloat gd →
      (∀ i, Fine (settled o nPol nCh columns[i]) rows t.nrow ants M.ant (kindAt columns i) (given M columns i)) →
    ∀ {P : (i : Fin columns.length) → Params (DataRow (Elem (kindAt columns i))) Key}, Clients P M t.nrow →
    ∀ {prog : List (MOp fun i => DataRow (Elem (kindAt columns i)))},
      (∀ i col, t'.cols columns[i] = some col → ops i prog = calls M (kindAt columns i) col.puts) →
    ∀ {k : Key} {w : WState P}, WReach (fun i => codec sq e M.ant (kindAt columns i))
        ⟨minitial P k 0 (fun _ _ => none) 0 prog, m⟩ w →
      (∃ w', WReach (fun i => codec sq e M.ant (kindAt columns i)) w w' ∧ w'.cols.pc = .closed) ∧
      ((∀ l w', MLabel.real l = true → ¬ WStep (fun i => codec sq e M.ant (kindAt columns i)) w l w') →
        w.cols.pc = .closed) ∧
      (w.cols.pc = .closed → ∀ (nRow' : Nat) (m0 : Man), List.Forall₂ SameShape m0.columns (columns.map (newColumn nPol nCh)) →
        ∃ r man, openFile nRow' m0 w.man.file = .ok r ∧ prepare r = (man, true) ∧ SameSettings man m ∧
        ∀ e0' d0', ∃ e', quantiser libs fuel man e0' d0' = some e' ∧
        ∀ i, ∃ col, man.columns[i.val]? = some col ∧ SameKind col (settled o nPol nCh columns[i]) ∧
          ReadsBack (codec sq e' M.ant (kindAt columns i) rows col) i col rows t.nrow man fun row out =>
            Close sq e gd (settled o nPol nCh columns[i]) rows t.nrow ants M.ant (kindAt columns i)
              (given M columns i) row out ∧ FlagsRead M row (kindAt columns i) out) := by
  obtain ⟨t', hrun, hout⟩ := dscompress_runs hv h hf hc
  refine ⟨t', hrun, hout, ?_⟩
  obtain ⟨rows, hreg, -, -⟩ := check_regular _ _ hc
  obtain ⟨q, hq⟩ := hreg.whole
  rw [rows_length, Nat.mul_comm] at hq
  refine ⟨rows, q, hreg, hq, ?_⟩
  generalize hn : t.nrow = n at *
  subst hq
  intro o nPol nCh ants hq1 hants hfit
  obtain ⟨f1, -, f3, f4, -, f6, -⟩ := manager_fields o
  have hdb := supported_bounds hfit.data
  have hwb := supported_bounds hfit.weight
  obtain ⟨m, hm1, hset, hm2⟩ := createColumns_spec o (by omega) (by omega) (q * rows) nPol nCh hne
  refine ⟨m, hm1, hset, options_quantiser hset, ?_⟩
  intro sq libs fuel e0 d0 e gd hsq hen hd hfine P hP prog hprog k w hw
  have hT : WholeTable P rows (q * rows) (given M columns) M.ant prog := by
    refine regular_whole hP hreg hq1 hsmall fun i => ?_
    obtain ⟨-, col, e1, -, -, e2⟩ := hout.moved columns[i] (List.getElem_mem _)
    rw [hprog i col e1, e2, hn]
  have hnew := fits_newTable hfit hreg.pos
  have hlen : (whole o nPol nCh columns).columns.length = columns.length := by simp [whole]
  have hc0 : 0 < columns.length := List.length_pos_iff.2 hne
  have hk : ∀ (i : Fin columns.length) c0, (whole o nPol nCh columns).columns[i.val]? = some c0 →
      c0.isData = (kindAt columns i).isData := fun i c0 h0 => (kind_isData o nPol nCh columns i c0 h0).2
  have hcol : ∀ (i : Fin columns.length) col, (newTable (q * rows) rows ants (whole o nPol nCh columns)).columns[i.val]? =
      some col → SameKind col (settled o nPol nCh columns[i]) := by
    intro i col hcl
    obtain ⟨c0, a0, a1, a2, a3, a4, a5, -⟩ := newTable_column hnew hcl
    obtain ⟨rfl, -⟩ := kind_isData o nPol nCh columns i c0 a0
    have b4 : col.bits = (settled o nPol nCh columns[i]).bits := by
      rw [a4]
      show (if decide (columns[i] ≠ weightName) = true then (manager o).dataBitCount else (manager o).weightBitCount) =
        if columns[i] = weightName then o.bitsPerWeight else o.bitsPerFloat
      rw [f3, f4]
      by_cases hx : columns[i] = weightName
      · simp [hx]
      · simp only [ne_eq, hx, not_false_eq_true, decide_true, if_true, if_false]
    have b5 : col.norm = (settled o nPol nCh columns[i]).norm := by
      rw [a5]
      show normOf (manager o).normalization = _
      rw [f6]; rfl
    exact { isData := a1, nPol := a2, nCh := a3, bits := b4, norm := b5 }
  have hf' : ∀ (i : Fin columns.length) col,
      (newTable (q * rows) rows ants (whole o nPol nCh columns)).columns[i.val]? = some col →
      Fine col rows (q * rows) ants M.ant (kindAt columns i) (given M columns i) := by
    intro i col hcl
    have hs := hcol i col hcl
    exact fine_congr hs.nPol.symm hs.nCh.symm hs.norm.symm (hfine i)
  have hs : SameLayout m (prepare (create (q * rows) (whole o nPol nCh columns))).1 := hm2
  have hset' : SameSettings m (whole o nPol nCh columns) := hset.trans ⟨rfl, rfl, rfl, rfl, rfl, rfl, rfl⟩
  have hd' : Quantised e (whole o nPol nCh columns).dataBitCount gd := by
    show Quantised e (manager o).dataBitCount gd
    rw [f3]
    exact hd
  have hen' : quantiser libs fuel (whole o nPol nCh columns) e0 d0 = some e := by
    rw [← quantiser_congr hset']
    exact hen
  have hdb' : Supported (whole o nPol nCh columns).dataBitCount := by
    show Supported (manager o).dataBitCount
    rw [f3]; exact hfit.data
  have hwb' : Supported (whole o nPol nCh columns).weightBitCount := by
    show Supported (manager o).weightBitCount
    rw [f4]; exact hfit.weight
  obtain ⟨g1, g2⟩ := table_closes_same hT hants hnew hlen hc0 hk hdb' hwb' hsq hd' hf' hs hw (given M columns)
  refine ⟨g1, g2, fun hcl nRow' m0 hsh => ?_⟩
  obtain ⟨r, man, e1, e2, es, e3⟩ := table_end_to_end_same hT hants hnew hlen hc0 hk hdb' hwb' hsq hen' hd' hf' hs hw hcl
    nRow' m0 hsh
  refine ⟨r, man, e1, e2, es.trans hset'.symm, fun e0' d0' => ?_⟩
  obtain ⟨e', e4, e5⟩ := e3 e0' d0'
  refine ⟨e', e4, fun i => ?_⟩
  obtain ⟨col, c0, c1, c2⟩ := e5 i
  have hsk := hcol i col c1
  refine ⟨col, c0, hsk, fun calls bf hg => ?_⟩
  obtain ⟨outs, o1, o2⟩ := c2 calls bf hg
  exact ⟨outs, o1, o2.imp fun x out hx =>
    ⟨close_congr hsk.nPol hsk.nCh hsk.norm hsk.bits hx, flags_read hx⟩⟩

end Dysco.Compress

namespace Dysco.Compress
open Tools World Col Multi StMan End BytePacker Layout Prepare

/-! ## The order of the program -/

section
variable {c : Nat} {V : Fin c → Type}

/-- The rows of column `i` are put. -/
def putsOf (v : (i : Fin c) → Nat → V i) (n : Nat) (i : Fin c) : List (MOp V) :=
  (List.range n).map fun r => .put i r (v i r)

/-- `MoveColumnData` for one column after the other, dscompress.cc:359-364; then the table is closed. -/
def columnwise (v : (i : Fin c) → Nat → V i) (n : Nat) : List (MOp V) :=
  (List.finRange c).flatMap (putsOf v n) ++ [.close]

theorem ops_putsOf (v : (i : Fin c) → Nat → V i) (i j : Fin c) (l : List Nat) (rest : List (MOp V)) :
    ops i (l.map (fun r => MOp.put j r (v j r)) ++ rest) =
      (if j = i then l.map fun r => Col.Op.put r (v i r) else []) ++ ops i rest := by
  induction l with
  | nil => simp
  | cons r l ih =>
    simp only [List.map_cons, List.cons_append, ops, ih]
    by_cases h : j = i
    · subst h
      simp
    · simp [h]

theorem ops_columnwise (v : (i : Fin c) → Nat → V i) (n : Nat) (i : Fin c) :
    ops i (columnwise v n) = (List.range n).map (fun r => .put r (v i r)) ++ [.close] := by
  have key : ∀ l : List (Fin c), l.Nodup → ∀ rest, ops i (l.flatMap (putsOf v n) ++ rest) =
      (if i ∈ l then (List.range n).map fun r => Col.Op.put r (v i r) else []) ++ ops i rest := by
    intro l
    induction l with
    | nil => intro _ rest; simp
    | cons j l ih =>
      intro hn rest
      obtain ⟨h1, h2⟩ := List.nodup_cons.1 hn
      rw [List.flatMap_cons, List.append_assoc]
      unfold putsOf at ih ⊢
      rw [ops_putsOf, ih h2]
      by_cases h : j = i
      · subst h
        simp [h1]
      · have : i ≠ j := fun e => h e.symm
        simp [h, this]
  unfold columnwise
  rw [key _ (List.nodup_finRange c), if_pos (List.mem_finRange i)]
  rfl

end

/-- The order of the program is one for which `dscompress_end_to_end` holds. -/
theorem columnwise_calls {t t' : Tab} {columns : List Arg} {M : MS}
    (h : Output t t' columns (M.flagged columns).cell) (i : Fin columns.length) (col : TCol)
    (hc : t'.cols columns[i] = some col) :
    ops i (columnwise (given M columns) t.nrow) = calls M (kindAt columns i) col.puts := by
  obtain ⟨-, col', e1, -, -, e2⟩ := h.moved columns[i] (List.getElem_mem _)
  rw [e1] at hc
  injection hc with hc
  subst hc
  rw [ops_columnwise, calls, e2, List.map_map]
  rfl

end Dysco.Compress
