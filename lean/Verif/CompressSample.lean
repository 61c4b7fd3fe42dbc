import Verif.CompressReturn

/-!
# A measurement set that dscompress compresses

Four rows in two blocks, with visibilities and weights; one sample is flagged.
-/

namespace Dysco.Compress
open Tools World Col Multi StMan End BytePacker Layout Prepare

/-- A flagged sample holds an infinite value. -/
def sampleMS : MS where
  data _ r := [⟨.fin (r : ℚ), .fin 1⟩, if r = 1 then ⟨.inf true, .fin 3⟩ else ⟨.fin 2, .fin 4⟩]
  weights r := [.fin ((r + 1 : Nat) : ℚ), .fin 2]
  flags r := [false, r == 1]
  time r := .fin ((r / 2 : Nat) : ℚ)
  field _ := 0
  desc _ := 0
  ant r := (0, r % 2)

/-- The columns of the example. Not in the code. -/
def sampleColumns : List Arg := ["DATA".toList, weightName]

/-- A column of the standard storage manager. Not in the code. -/
def plain (kind : Tools.Kind) (x : Nat → Cell) : TCol := ⟨"StandardStMan".toList, kind, fun r => some (x r), []⟩

/-- The table of the example. Not in the code. -/
def sampleTab : Tab where
  nrow := 4
  cols c :=
    if c = "DATA".toList then some (plain .complex fun r => .complex (sampleMS.data c r))
    else if c = weightName then some (plain .float fun r => .float (sampleMS.weights r))
    else if c = "FLAG".toList then some (plain .bool fun r => .bool (sampleMS.flags r))
    else if c = "TIME".toList then some (plain .double fun r => .double (sampleMS.time r))
    else if c = "FIELD_ID".toList then some (plain .int fun r => .int (sampleMS.field r))
    else if c = "DATA_DESC_ID".toList then some (plain .int fun r => .int (sampleMS.desc r))
    else if c = "ANTENNA1".toList then some (plain .int fun r => .int (sampleMS.ant r).1)
    else if c = "ANTENNA2".toList then some (plain .int fun r => .int (sampleMS.ant r).2)
    else none

theorem plain_not : "StandardStMan".toList ≠ dysco := by decide

theorem sample_input : Input sampleTab sampleColumns sampleMS where
  nodup := by decide
  free c hc := by
    simp only [sampleColumns, List.mem_cons, List.not_mem_nil, or_false] at hc
    rcases hc with rfl | rfl <;> rfl
  data c hc hw := by
    simp only [sampleColumns, List.mem_cons, List.not_mem_nil, or_false] at hc
    rcases hc with rfl | rfl
    · exact ⟨_, rfl, rfl, plain_not, fun _ _ => rfl⟩
    · exact absurd rfl hw
  weights _ := ⟨_, rfl, rfl, plain_not, fun _ _ => rfl⟩
  flags := ⟨_, rfl, rfl, plain_not, fun _ _ => rfl⟩
  time := ⟨_, rfl, rfl, plain_not, fun _ _ => rfl⟩
  field := ⟨_, rfl, rfl, plain_not, fun _ _ => rfl⟩
  desc := ⟨_, rfl, rfl, plain_not, fun _ _ => rfl⟩
  ant1 := ⟨_, rfl, rfl, plain_not, fun _ _ => rfl⟩
  ant2 := ⟨_, rfl, rfl, plain_not, fun _ _ => rfl⟩

theorem sample_flags : sampleMS.Flags sampleColumns 4 := fun _ _ _ _ _ => Nat.le_refl 2

theorem sample_check : check differs (sampleMS.rows 4) = .ok () := rfl

/-- The options of the example. Not in the code. -/
def sampleOptions : Options Nat Nat := ⟨.uniform, .row, false, 8, 8, 0, false, sampleColumns⟩

theorem sample_fits : Fits sampleOptions 1 2 sampleColumns 2 2 where
  data := by unfold Supported; decide
  weight := by unfold Supported; decide
  truncation h := by cases h
  pols := by decide
  channels := by decide
  columnCount := by decide
  rowCount := by decide
  antCount := by decide
  total := by decide +kernel

theorem fine_data {M : MS} {columns : List Arg} {i : Fin columns.length} {col : StMan.Column} {rows R ants : Nat}
    {antOf : Nat → Nat × Nat} (hw : columns[i] ≠ weightName)
    (h : FineData col rows R ants antOf fun r => rowOf (M.ant r) .data ((M.flagged columns).cell columns[i] r)) :
    Fine col rows R ants antOf (kindAt columns i) (given M columns i) := by
  have hk : kindAt columns i = .data := if_neg hw
  have hg : given M columns i = fun r => rowOf (M.ant r) (kindAt columns i) ((M.flagged columns).cell columns[i] r) := rfl
  rw [hg, hk]
  exact h

theorem fine_weights {M : MS} {columns : List Arg} {i : Fin columns.length} {col : StMan.Column} {rows R ants : Nat}
    {antOf : Nat → Nat × Nat} (hw : columns[i] = weightName)
    (h : FineWeights col R fun r => rowOf (M.ant r) .weight ((M.flagged columns).cell columns[i] r)) :
    Fine col rows R ants antOf (kindAt columns i) (given M columns i) := by
  have hk : kindAt columns i = .weight := if_pos hw
  have hg : given M columns i = fun r => rowOf (M.ant r) (kindAt columns i) ((M.flagged columns).cell columns[i] r) := rfl
  rw [hg, hk]
  exact h

/-- The visibilities after flagging. -/
def sampleFlagged (r j : Nat) : Cx :=
  [⟨.fin (r : ℚ), .fin 1⟩, if r = 1 then nanCx else ⟨.fin 2, .fin 4⟩].getD j nanCx

theorem sample_given (r j : Nat) :
    (rowOf (sampleMS.ant r) .data ((sampleMS.flagged sampleColumns).cell "DATA".toList r)).vis.get j = sampleFlagged r j := by
  have hd : (sampleMS.flagged sampleColumns).cell "DATA".toList r =
      .complex (masked (sampleMS.flags r) (sampleMS.data "DATA".toList r)) := rfl
  rw [hd]
  show (masked (sampleMS.flags r) (sampleMS.data "DATA".toList r)).getD j nanCx = _
  unfold sampleFlagged
  congr 1
  by_cases hr : r = 1 <;> simp [masked, sampleMS, hr]

theorem sample_fine (i : Fin sampleColumns.length) : Fine (settled sampleOptions 1 2 sampleColumns[i]) 2 4 2 sampleMS.ant
    (kindAt sampleColumns i) (given sampleMS sampleColumns i) := by
  match i with
  | ⟨0, _⟩ =>
    refine fine_data (by decide +revert) ?_
    refine FineData.mk (fun row _ => rfl) (fun row j hr hj => ?_) (fun _ row j m hr hj hm => ?_) (fun hx => ?_)
    · show Fl.IsFloat ((rowOf (sampleMS.ant row) .data ((sampleMS.flagged sampleColumns).cell "DATA".toList row)).vis.get
        j).re ∧ Fl.IsFloat ((rowOf (sampleMS.ant row) .data ((sampleMS.flagged sampleColumns).cell "DATA".toList row)).vis.get j).im
      rw [sample_given]
      have hj : j < 2 := hj
      unfold sampleFlagged
      interval_cases row <;> interval_cases j <;>
        exact ⟨AF.isFloat_of_cast (by decide +kernel), AF.isFloat_of_cast (by decide +kernel)⟩
    · have hm : Counted ((rowOf (sampleMS.ant row) .data ((sampleMS.flagged sampleColumns).cell "DATA".toList row)).vis.get
        j) m := hm
      rw [sample_given] at hm
      have hj : j < 2 := hj
      have h4 : m ≤ 4 := by
        unfold sampleFlagged at hm
        obtain ⟨x, hx, ⟨y, hy, rfl⟩ | ⟨hy, rfl⟩⟩ := hm
        · interval_cases row <;> interval_cases j <;> first
            | (injection hx with hx; injection hy with hy; subst hx; subst hy; norm_num)
            | cases hx
        · interval_cases row <;> interval_cases j <;> first
            | cases hx; done
            | cases hy
      exact h4.trans (by norm_num)
    · exact absurd hx (by decide +revert)
  | ⟨1, _⟩ =>
    refine fine_weights (by decide +revert) ?_
    refine FineWeights.mk (by decide +revert) (by decide +revert) (fun row _ => rfl) (fun row j hr hj => ?_)
    have hj : j < 2 := hj
    have hcell : ∀ r, (rowOf (sampleMS.ant r) .weight ((sampleMS.flagged sampleColumns).cell weightName r)).vis.get j =
        [.fin ((r + 1 : Nat) : ℚ), .fin 2].getD j Fl.nan := fun _ => rfl
    have hrep : ∀ n : Nat, n ≤ 5 → ∃ x : ℚ, Fl.fin (n : ℚ) = .fin x ∧ 0 ≤ x ∧ x < 2 ^ (128 : ℤ) ∧
        Fl.Repr Fl.binary32 x := fun n hn =>
      ⟨n, rfl, by positivity, lt_of_le_of_lt (by exact_mod_cast hn : (n : ℚ) ≤ 5) (by norm_num),
        Fl.repr32_nat (by omega)⟩
    refine (?_ : ∃ x, (rowOf (sampleMS.ant row) .weight ((sampleMS.flagged sampleColumns).cell weightName row)).vis.get j =
      .fin x ∧ 0 ≤ x ∧ x < 2 ^ (128 : ℤ) ∧ Fl.Repr Fl.binary32 x)
    rw [hcell]
    interval_cases j
    · exact hrep (row + 1) (by omega)
    · exact hrep 2 (by omega)

/-- The columns of the sample: three threads. -/
def samplePar (i : Fin sampleColumns.length) : Params (DataRow (Elem (kindAt sampleColumns i))) Key :=
  ⟨3, 2, sampleMS.key, differs, fun _ _ => id⟩

/-- The program runs, its table is closed by some schedule, and the file is read back with the flagged sample as NaN. -/
example (libs : Libs) : ∃ t' m e w, Runs (dscompress (fun col r => (col.rows r).getD (.int 0)) sampleColumns) sampleTab () t' ∧
    createColumns sampleOptions 4 1 2 sampleColumns = (m, true) ∧
    quantiser libs 0 m (fun _ => .nan) (fun _ => .nan) = some e ∧
    WReach (P := samplePar) (fun i => codec AF.coarseSqrt e sampleMS.ant (kindAt sampleColumns i))
      ⟨minitial samplePar (sampleMS.key 0) 0 (fun _ _ => none) 0 (columnwise (given sampleMS sampleColumns) 4), m⟩ w ∧
    w.cols.pc = .closed ∧ ∃ r man, openFile 4 (whole sampleOptions 1 2 sampleColumns) w.man.file = .ok r ∧
      prepare r = (man, true) ∧ SameSettings man m ∧
      ∀ e0' d0', ∃ e', quantiser libs 0 man e0' d0' = some e' ∧
      ∀ i, ∃ col, man.columns[i.val]? = some col ∧ SameKind col (settled sampleOptions 1 2 sampleColumns[i]) ∧
        ReadsBack (codec AF.coarseSqrt e' sampleMS.ant (kindAt sampleColumns i) 2 col) i col 2 4 man fun row out =>
          Close AF.coarseSqrt e (grid .uniform 8) (settled sampleOptions 1 2 sampleColumns[i]) 2 4 2 sampleMS.ant
            (kindAt sampleColumns i) (given sampleMS sampleColumns i) row out ∧
          FlagsRead sampleMS row (kindAt sampleColumns i) out := by
  have hv : Faithful fun col r => (col.rows r).getD (.int 0) := fun col r x _ hx => by simp [hx]
  obtain ⟨t', hrun, hout, rows, q, hreg, hq, H⟩ := dscompress_end_to_end hv sample_input (by decide) sample_flags
    sample_check (by decide)
  have hq : 4 = q * rows := hq
  have hrows : rows = 2 := by
    have hk := hreg.keys
    have hr : rows ≤ 4 := Nat.le_of_dvd (by decide) ⟨q, by rw [hq, Nat.mul_comm]⟩
    have h2 := hk 2 (by decide) (by decide)
    have h1 := hk 1 (by decide) (by decide)
    have := hreg.pos
    interval_cases rows
    · exact absurd h1 (by decide +kernel)
    · rfl
    · omega
    · exact absurd h2 (by decide +kernel)
  subst hrows
  obtain rfl : q = 2 := by omega
  have hants : AntennaCount 2 sampleMS.ant 2 :=
    ⟨fun r _ => ⟨Nat.two_pos, Nat.mod_lt _ Nat.two_pos⟩, 1, by decide, .inr rfl⟩
  obtain ⟨m, hm, -, hmq, H⟩ := H (o := sampleOptions) (by decide) hants sample_fits
  obtain ⟨e, _, h1, _⟩ := Prepare.encoder_determined (libs.with_ sampleOptions) 0 .uniform 8 (by norm_num)
    (fun _ => .nan) (fun _ => .nan) (fun _ => .nan) (fun _ => .nan)
  have hd : Quantised e 8 (grid .uniform 8) := concrete_quantised (.inl ⟨rfl, by decide⟩) (by decide) h1
  have hq : quantiser libs 0 m (fun _ => .nan) (fun _ => .nan) = some e := (hmq _ _ _ _).trans h1
  have G := @H AF.coarseSqrt libs 0 (fun _ => .nan) (fun _ => .nan) e _ AF.coarseSqrt_mono hq hd sample_fine
  have hP : Clients samplePar sampleMS 4 := ⟨fun _ => by decide +revert, fun _ => by decide +revert, fun _ _ _ => rfl, fun _ => rfl⟩
  obtain ⟨⟨w, w1, w2⟩, -⟩ := G hP (columnwise_calls hout) (k := sampleMS.key 0) .start
  obtain ⟨-, -, g⟩ := G hP (columnwise_calls hout) (k := sampleMS.key 0) w1
  exact ⟨t', m, e, w, hrun, hm, hq, w1, w2, g w2 4 _ (List.forall₂_same.mpr fun x _ => ⟨rfl, rfl, rfl⟩)⟩

/-! ## And back -/

theorem sample_names : ∀ i : Fin sampleColumns.length, sampleColumns[i] = Tools.dataName ∨ sampleColumns[i] = weightName := by
  decide

/-- A table that was compressed and read back (as in the example above) can be decompressed. -/
example {t t' : Tab} {x : Arg → Nat → Cell} (hout : Output t t' sampleColumns x)
    {K : (i : Fin sampleColumns.length) → Codec (Elem (kindAt sampleColumns i))}
    {cols : Fin sampleColumns.length → StMan.Column} {rows : Nat} {man : Man}
    {C : (i : Fin sampleColumns.length) → Nat → Buf (Elem (kindAt sampleColumns i)) → Prop}
    (hread : ∀ i, ReadsBack (K i) i (cols i) rows t.nrow man (C i))
    (reads : (i : Fin sampleColumns.length) → List (Call (Elem (kindAt sampleColumns i))))
    (bufs : (i : Fin sampleColumns.length) → Block (Elem (kindAt sampleColumns i)))
    (hgood : ∀ i, GoodCalls (cols i) rows t.nrow ((cols i).nPol * (cols i).nCh) (reads i))
    (hrows : ∀ i, (reads i).map Call.row = List.range t.nrow) :
    ∃ view n n' t'', decompressColumns view n t' = .done true n' t'' ∧
      ∀ (i : Fin sampleColumns.length) (r : Nat), r < t.nrow → ∃ col out, t''.cols sampleColumns[i] = some col ∧
        col.rows r = some (cells _ out) ∧ C i r out := by
  classical
  have hinj : ∀ (i j : Fin sampleColumns.length) col, t'.cols sampleColumns[i] = some col → t'.cols sampleColumns[j] = some col → i = j := by
    intro i j col hi hj
    obtain ⟨-, c1, a1, -, a2, -⟩ := hout.moved sampleColumns[i] (List.getElem_mem _)
    obtain ⟨-, c2, b1, -, b2, -⟩ := hout.moved sampleColumns[j] (List.getElem_mem _)
    rw [hi] at a1
    rw [hj] at b1
    injection a1 with a1
    injection b1 with b1
    subst a1
    subst b1
    have hk := a2.symm.trans b2
    clear hi hj a2 b2
    revert i j
    decide
  let V : Fin sampleColumns.length → Nat → Cell := fun i r =>
    match getAll (K i) i (reads i) ⟨man, noBlock, bufs i⟩ with
    | .ok outs => (outs[r]?.map (cells _)).getD (.int 0)
    | _ => .int 0
  let view : View Cell := fun col r =>
    if h : ∃ i : Fin sampleColumns.length, t'.cols sampleColumns[i] = some col then V h.choose r else .int 0
  obtain ⟨n0, H⟩ := decompress_returns hout (by decide) (by decide) hread reads bufs hgood hrows (view := view) (by
    intro i col outs hc ho r out hr
    have hex : ∃ i : Fin sampleColumns.length, t'.cols sampleColumns[i] = some col := ⟨i, hc⟩
    have hi : hex.choose = i := hinj _ _ _ hex.choose_spec hc
    show (if h : _ then _ else _) = _
    rw [dif_pos hex]
    rw [hi]
    simp only [V]
    rw [ho]
    simp [hr])
  obtain ⟨n', t'', e1, -, e2, -⟩ := H n0 le_rfl
  refine ⟨view, n0, n', t'', e1, fun i r hr => ?_⟩
  obtain ⟨col, c1, -, -, c2⟩ := e2 i (sample_names i)
  obtain ⟨out, o1, o2⟩ := c2 r hr
  exact ⟨col, out, c1, o1, o2⟩

/-! ## The other outcomes -/

/-- A row is missing: the program throws. -/
example : check differs (sampleMS.rows 3) = .throws := rfl

/-- In a later block there are more rows than in the first: the check reads past the end. -/
example : check differs ({ sampleMS with time := fun r => .fin ((r + 1) / 2 : Nat) }.rows 3) = .throws ∧
    check differs ({ sampleMS with time := fun r => .fin ((r + 1) / 2 : Nat), ant := fun r => (0, r / 2) }.rows 3) = .ub :=
  ⟨rfl, rfl⟩

/-- Too few flags. -/
example : ¬ ({ sampleMS with flags := fun _ => [true] } : MS).Flags sampleColumns 4 := fun h =>
  absurd (h "DATA".toList (by decide) (by decide) 0 (by decide)) (by decide)

/-! The theorems of `CompressProgram.lean` on these tables. -/

example {view : View Cell} (hv : Faithful view) : ∃ t', Runs (dscompress view sampleColumns) sampleTab () t' ∧
    Output sampleTab t' sampleColumns (sampleMS.flagged sampleColumns).cell :=
  dscompress_runs hv sample_input sample_flags sample_check

/-- Without its last row, the table is refused. -/
example {view : View Cell} (hv : Faithful view) : ∃ t' n0, ∀ n, n0 ≤ n →
    dscompress view sampleColumns n { sampleTab with nrow := 3 } = .threw t' := by
  have hi : Input { sampleTab with nrow := 3 } sampleColumns sampleMS := by
    have h := sample_input
    have cut : ∀ {c : Arg} {k x}, Stores sampleTab c k x → Stores { sampleTab with nrow := 3 } c k x :=
      fun ⟨col, a, b, d, e⟩ => ⟨col, a, b, d, fun r hr => e r (Nat.lt_of_lt_of_le hr (by decide))⟩
    exact ⟨h.nodup, h.free, fun c hc hw => cut (h.data c hc hw), fun hw => cut (h.weights hw), cut h.flags, cut h.time,
      cut h.field, cut h.desc, cut h.ant1, cut h.ant2⟩
  obtain ⟨t', n0, -, -, h⟩ := dscompress_throws hv hi (fun _ _ _ _ _ => Nat.le_refl 2) rfl
  exact ⟨t', n0, h⟩

/-- The settings of the manager that the program makes. -/
example : ∃ m, createColumns sampleOptions 4 1 2 sampleColumns = (m, true) ∧ SameSettings m (manager sampleOptions) := by
  obtain ⟨m, h1, h2, -⟩ := createColumns_spec sampleOptions (by decide) (by decide) 4 1 2 (columns := sampleColumns) (by decide)
  exact ⟨m, h1, h2⟩

end Dysco.Compress
