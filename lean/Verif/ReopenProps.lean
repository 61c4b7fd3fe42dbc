import Verif.StorageProps

/-!
# C66: closing and reopening restores the manager

A manager is created, prepared and given its layout; blocks are written; later the file is opened and
prepared by another manager for the same table columns. The two managers agree.
-/

namespace Dysco.StMan
open BytePacker Layout

/-- The columns have the same kind and shape, which is what the table keeps of a column. -/
structure SameShape (c c' : Column) : Prop where
  isData : c.isData = c'.isData
  nPol : c.nPol = c'.nPol
  nCh : c.nCh = c'.nCh

/-- The columns agree in everything that determines the layout. -/
structure SameKind (c c' : Column) : Prop extends SameShape c c' where
  bits : c.bits = c'.bits
  norm : c.norm = c'.norm

theorem layout_congr (rows ants : Nat) {cs cs' : List Column} (h : List.Forall₂ SameKind cs cs') (bs : Nat) :
    layoutColumns rows ants cs bs = layoutColumns rows ants cs' bs := by
  induction h generalizing bs with
  | nil => rfl
  | @cons c c' cs cs' hc _ ih =>
    obtain ⟨k, p, n, b, o, x1, x2, x3⟩ := c
    obtain ⟨k', p', n', b', o', y1, y2, y3⟩ := c'
    obtain ⟨⟨h1, h2, h3⟩, h4, h5⟩ := hc
    simp only at h1 h2 h3 h4 h5
    subst h1; subst h2; subst h3; subst h4; subst h5
    have e : ∀ r a, (⟨k, p, n, b, o, x1, x2, x3⟩ : Column).calcSize r a =
      (⟨k, p, n, b, o, y1, y2, y3⟩ : Column).calcSize r a := fun _ _ => rfl
    simp only [layoutColumns, e, ih]

/-- The columns as `prepare` configures them, dyscostman.cc:351-376. -/
def configured (m : Man) (cs : List Column) : List Column :=
  cs.map fun c =>
    { c with
      bits := if c.isData then m.dataBitCount else m.weightBitCount
      norm := normOf m.normalization }

theorem configured_same {m r : Man} (h1 : r.dataBitCount = m.dataBitCount)
    (h2 : r.weightBitCount = m.weightBitCount) (h3 : r.normalization = m.normalization)
    {cs' cs : List Column} (h : List.Forall₂ SameShape cs' cs) (ds : List Column)
    (hl : ds.length = cs'.length) :
    List.Forall₂ SameKind (configured r (restored ds cs')) (configured m cs) := by
  unfold configured restored
  induction h generalizing ds with
  | nil => cases ds <;> simp at hl ⊢
  | @cons c c' cs cs' hc _ ih =>
    cases ds with
    | nil => simp at hl
    | cons d ds =>
      simp only [List.zipWith_cons_cons, List.map_cons]
      refine List.Forall₂.cons ⟨⟨hc.isData, hc.nPol, hc.nCh⟩, ?_, ?_⟩ (ih ds (by simpa using hl))
      · simp only [hc.isData, h1, h2]
      · simp only [h3]

theorem prepare_new {m : Man} (h1 : m.dataBitCount ≠ 0) (h2 : m.weightBitCount ≠ 0)
    (h0 : m.rowsPerBlock = 0) : prepare m = ({ m with columns := configured m m.columns }, true) := by
  unfold prepare
  rw [if_neg (by omega)]
  simp only [areOffsetsInitialized, h0]
  rfl

theorem prepare_again {m : Man} (h1 : m.dataBitCount ≠ 0) (h2 : m.weightBitCount ≠ 0)
    (h0 : m.rowsPerBlock ≠ 0) (h3 : m.rowsPerBlock < 2 ^ 32) (h4 : m.antennaCount < 2 ^ 32) :
    prepare m = ({ m with
      columns := (layoutColumns m.rowsPerBlock m.antennaCount (configured m m.columns) 0).1
      blockSize := (layoutColumns m.rowsPerBlock m.antennaCount (configured m m.columns) 0).2 }, true) := by
  have e3 := Nat.mod_eq_of_lt h3
  have e4 := Nat.mod_eq_of_lt h4
  unfold prepare
  rw [if_neg (by omega)]
  simp only [areOffsetsInitialized, bne_iff_ne, ne_eq, h0, not_false_eq_true, if_true]
  unfold initializeRowsPerBlock
  simp only [ne_eq, not_true_eq_false, or_self, and_false, if_false, e3, e4]
  rfl

/-- The settings fit into the bytes of the header. -/
structure Man.Settings (m : Man) : Prop where
  data : 0 < m.dataBitCount ∧ m.dataBitCount < 256
  weight : 0 < m.weightBitCount ∧ m.weightBitCount < 256
  distribution : m.distribution < 256
  normalization : m.normalization < 256
  studentTNu : m.studentTNu < 2 ^ 64
  distributionTruncation : m.distributionTruncation < 2 ^ 64

/-- The manager of a new table once the number of rows per block is known: `create`, `prepare` and
`initializeRowsPerBlock`. -/
def newTable (nRow rows ants : Nat) (m : Man) : Man :=
  (initializeRowsPerBlock rows ants true (prepare (create nRow m)).1).1

/-- What is assumed about a new table: no layout yet, settings and sizes in range. -/
structure NewTable (rows ants : Nat) (m : Man) : Prop where
  settings : m.Settings
  noLayout : m.rowsPerBlock = 0
  rowCount : 0 < rows ∧ rows < 2 ^ 32
  antCount : ants < 2 ^ 32
  small : 52 + m.name.length + 24 * m.columns.length < 2 ^ 32
  total : totalSize rows ants (configured m m.columns) < 2 ^ 32
  positive : ∀ c ∈ configured m m.columns, 0 < c.calcSize rows ants

theorem newTable_eq {nRow rows ants : Nat} {m : Man} (h : NewTable rows ants m) :
    newTable nRow rows ants m =
      (initializeRowsPerBlock rows ants true (create nRow { m with columns := configured m m.columns })).1 := by
  unfold newTable
  rw [prepare_new (m := create nRow m) (Nat.pos_iff_ne_zero.mp h.settings.data.1)
    (Nat.pos_iff_ne_zero.mp h.settings.weight.1) h.noLayout]
  rfl

theorem newTable_fresh {nRow rows ants : Nat} {m : Man} (h : NewTable rows ants m) :
    Fresh (newTable nRow rows ants m) := by
  rw [newTable_eq h]
  exact fresh_of_create { m with columns := configured m m.columns } nRow rows ants h.rowCount.2 h.antCount
    (by simpa [configured] using h.small) h.noLayout h.total h.positive

theorem newTable_fields {nRow rows ants : Nat} {m : Man} (h : NewTable rows ants m) :
    (newTable nRow rows ants m).rowsPerBlock = rows ∧ (newTable nRow rows ants m).antennaCount = ants ∧
    (newTable nRow rows ants m).columns = (layoutColumns rows ants (configured m m.columns) 0).1 ∧
    (newTable nRow rows ants m).blockSize = (layoutColumns rows ants (configured m m.columns) 0).2 ∧
    (newTable nRow rows ants m).name = m.name ∧
    (newTable nRow rows ants m).dataBitCount = m.dataBitCount ∧
    (newTable nRow rows ants m).weightBitCount = m.weightBitCount ∧
    (newTable nRow rows ants m).distribution = m.distribution ∧
    (newTable nRow rows ants m).normalization = m.normalization ∧
    (newTable nRow rows ants m).studentTNu = m.studentTNu ∧
    (newTable nRow rows ants m).distributionTruncation = m.distributionTruncation := by
  have e1 := Nat.mod_eq_of_lt h.rowCount.2
  have e2 := Nat.mod_eq_of_lt h.antCount
  rw [newTable_eq h]
  unfold initializeRowsPerBlock
  rw [if_neg (by simp [areOffsetsInitialized, create, h.noLayout])]
  simp only [if_true, e1, e2]
  rw [writeHeader_ok (by rfl)]
  refine ⟨rfl, rfl, rfl, rfl, rfl, rfl, rfl, rfl, rfl, rfl, rfl⟩

/-- **C66.** A table is created and any operations on its blocks follow, the last of which may leave blocks
in any order; the last column has written the last block. Opening the file for the same columns and
preparing them gives the manager as it was when the file was closed, except for the number of rows, which
the table supplies. -/
theorem reopen_prepare {rows ants : Nat} {m : Man} (h : NewTable rows ants m) (nRow : Nat)
    (ops : List BlockOp) (nRow' : Nat) (m0 : Man) (hs : List.Forall₂ SameShape m0.columns m.columns)
    (hc : m.columns ≠ [])
    (hlast : let m' := ops.foldl blockStep (newTable nRow rows ants m)
      m'.nBlocks = 0 ∨ ∃ d, .write (m'.nBlocks - 1) (m.columns.length - 1) d ∈ ops) :
    let m' := ops.foldl blockStep (newTable nRow rows ants m)
    ∃ r, openFile nRow' m0 m'.file = .ok r ∧ prepare r = ({ m' with nRow := nRow' }, true) := by
  intro m'
  have hF : Fresh (newTable nRow rows ants m) := newTable_fresh h
  obtain ⟨f1, f2, f3, f4, f5, f6, f7, f8, f9, f10, f11⟩ := newTable_fields (nRow := nRow) h
  have hlen : (newTable nRow rows ants m).columns.length = m.columns.length := by
    obtain ⟨_, _, h3, _⟩ := layout_spec h.rowCount.2 h.antCount (configured m m.columns) 0
      (by have := h.total; omega)
    rw [f3, h3]
    simp [configured]
  have hl0 : m0.columns.length = m.columns.length := hs.length_eq
  obtain ⟨hh, hcol⟩ := run_holds hF.holds ops
  obtain ⟨a1, a2, a3, a4, a5, a6, a7, a8, a9, a10, a11⟩ := headerBytes_run hF ops
  have g1 : m'.rowsPerBlock = rows := a1.trans f1
  have g2 : m'.antennaCount = ants := a2.trans f2
  have g4 := a4.trans f5
  have g5 := a5.trans f6
  have g6 := a6.trans f7
  have g7 := a7.trans f8
  have g8 := a8.trans f9
  have g9 := a9.trans f10
  have g10 := a10.trans f11
  have hbs : m'.blockSize < 2 ^ 32 := by
    obtain ⟨_, h2, _, _⟩ := layout_spec h.rowCount.2 h.antCount (configured m m.columns) 0
      (by have := h.total; omega)
    have := h.total
    show (ops.foldl blockStep (newTable nRow rows ants m)).blockSize < 2 ^ 32
    rw [a3, f4, h2]
    omega
  have hS := h.settings
  have hr' : m'.InRange := hh.inRange (by rw [a1, f1]; exact h.rowCount.2) (by rw [a2, f2]; exact h.antCount)
    hbs (by rw [g9]; exact hS.studentTNu) (by rw [g10]; exact hS.distributionTruncation)
  have hc' : m'.columns ≠ [] := by
    intro he
    have h1 : m'.columns.length = m.columns.length := by rw [← hlen, ← hcol]
    rw [he, List.length_nil] at h1
    exact hc (List.length_eq_zero_iff.mp h1.symm)
  have hlen' : m'.columns.length = m.columns.length := by rw [← hlen, ← hcol]
  have e := open_written hr' hh.header nRow' (m0 := m0) (by rw [hl0, ← hlen'])
    (Or.inl (Nat.pos_iff_ne_zero.mp (hh.blockSize_pos hc')))
  refine ⟨_, e, ?_⟩
  have hcount := reopened_count hh hc'
  have hn : (opened nRow' m0 m'.file m'.header (restored m'.columns m0.columns)).nBlocks = m'.nBlocks := by
    have hhs : m'.header.headerSize = m'.headerSize := hh.headerSize.symm
    show (if m'.file.len > m'.header.headerSize then (m'.file.len - m'.header.headerSize) / m'.blockSize
      else 0) = _
    rw [hhs, hcount]
    rcases hlast with hz | ⟨d, hd⟩
    · have hz' : m'.nBlocks = 0 := hz
      rw [hz']
      split <;> rfl
    · rw [if_pos]
      have hsome : ∀ (ops : List BlockOp) (S : Store) (b i n : Nat), i < n →
          ((S b i).isSome ∨ ∃ d, BlockOp.write b i d ∈ ops) → (ops.foldl (storeStep n) S b i).isSome := by
        intro ops
        induction ops with
        | nil => intro S b i n _ hx; simpa using hx
        | cons op ops ih =>
          intro S b i n hin hx
          rw [List.foldl_cons]
          apply ih _ _ _ _ hin
          rcases hx with hx | ⟨d, hx⟩
          · left
            cases op with
            | write b' i' d' =>
              simp only [storeStep]
              split
              · rfl
              · exact hx
            | read => exact hx
            | header => exact hx
          · rcases List.mem_cons.mp hx with rfl | hx
            · left
              simp only [storeStep, true_and]
              rw [if_pos hin]
              rfl
            · exact Or.inr ⟨d, hx⟩
      rw [hlen', hlen]
      exact hsome ops _ _ _ _ (by
        have := List.length_pos_iff.mpr hc
        omega) (Or.inr ⟨d, hd⟩)
  have k1 : m'.dataBitCount % 2 ^ 8 = m.dataBitCount := by
    rw [show m'.dataBitCount = m.dataBitCount from g5]
    exact Nat.mod_eq_of_lt hS.data.2
  have k2 : m'.weightBitCount % 2 ^ 8 = m.weightBitCount := by
    rw [show m'.weightBitCount = m.weightBitCount from g6]
    exact Nat.mod_eq_of_lt hS.weight.2
  have k3 : m'.distribution % 2 ^ 8 = m.distribution := by
    rw [show m'.distribution = m.distribution from g7]
    exact Nat.mod_eq_of_lt hS.distribution
  have k4 : m'.normalization % 2 ^ 8 = m.normalization := by
    rw [show m'.normalization = m.normalization from g8]
    exact Nat.mod_eq_of_lt hS.normalization
  generalize hR : opened nRow' m0 m'.file m'.header (restored m'.columns m0.columns) = R at hn ⊢
  have r1 : R.dataBitCount = m.dataBitCount := by rw [← hR]; exact k1
  have r2 : R.weightBitCount = m.weightBitCount := by rw [← hR]; exact k2
  have r3 : R.distribution = m.distribution := by rw [← hR]; exact k3
  have r4 : R.normalization = m.normalization := by rw [← hR]; exact k4
  have r5 : R.rowsPerBlock = rows := by rw [← hR]; exact g1
  have r6 : R.antennaCount = ants := by rw [← hR]; exact g2
  have r7 : R.columns = restored m'.columns m0.columns := by rw [← hR]; rfl
  have r8 : R.headerSize = m'.headerSize := by rw [← hR]; exact hh.headerSize.symm
  have r9 : R.name = m'.name := by rw [← hR]; rfl
  have r10 : R.studentTNu = m'.studentTNu := by rw [← hR]; rfl
  have r11 : R.distributionTruncation = m'.distributionTruncation := by rw [← hR]; rfl
  have r12 : R.file = m'.file := by rw [← hR]; rfl
  have r13 : R.failed = false := by rw [← hR]; rfl
  have r14 : R.nRow = nRow' := by rw [← hR]; rfl
  rw [prepare_again (by rw [r1]; exact Nat.pos_iff_ne_zero.mp hS.data.1)
    (by rw [r2]; exact Nat.pos_iff_ne_zero.mp hS.weight.1)
    (by rw [r5]; exact Nat.pos_iff_ne_zero.mp h.rowCount.1) (by rw [r5]; exact h.rowCount.2)
    (by rw [r6]; exact h.antCount), r5, r6, r7,
    layout_congr rows ants (configured_same r1 r2 r4 hs m'.columns (by rw [hl0, hlen'])) 0]
  have s1 : m'.columns = (layoutColumns rows ants (configured m m.columns) 0).1 := by rw [← f3, ← hcol]
  have s2 : m'.blockSize = (layoutColumns rows ants (configured m m.columns) 0).2 := by rw [← f4, ← a3]
  rw [← s1, ← s2]
  have t0 : m'.failed = false := hh.ok
  obtain ⟨x1, x2, x3, x4, x5, x6, x7, x8, x9, x10, x11, x12, x13, x14, x15, x16⟩ := R
  simp only at hn r1 r2 r3 r4 r5 r6 r8 r9 r10 r11 r12 r13 r14
  rw [← g5] at r1
  rw [← g6] at r2
  rw [← g7] at r3
  rw [← g8] at r4
  rw [← g1] at r5
  rw [← g2] at r6
  rw [← t0] at r13
  subst hn r1 r2 r3 r4 r5 r6 r8 r9 r10 r11 r12 r13 r14
  rw [Prod.mk.injEq, Man.mk.injEq]
  exact ⟨⟨rfl, rfl, g1.symm, g2.symm, rfl, rfl, rfl, rfl, rfl, rfl, rfl, rfl, rfl, rfl, rfl, rfl⟩, rfl⟩

/-- A table with a data column and a weight column, 8 bits each, row normalisation. -/
def tableMan : Man :=
  { nRow := 0, nBlocks := 0, rowsPerBlock := 0, antennaCount := 0, blockSize := 0, headerSize := 0
    name := [65], dataBitCount := 8, weightBitCount := 8, distribution := 3, normalization := 2
    studentTNu := 0, distributionTruncation := 0
    columns := [⟨true, 4, 16, 0, .af, 0, 0, 0⟩, ⟨false, 4, 16, 0, .af, 0, 0, 0⟩]
    file := ⟨0, fun _ => 0⟩, failed := false }

theorem tableMan_new : NewTable 3 2 tableMan := by
  refine ⟨⟨by decide, by decide, by decide, by decide, by decide, by decide⟩, rfl, by decide, by decide,
    by decide, by decide +kernel, ?_⟩
  intro c hc
  simp only [configured, tableMan, List.map_cons, List.map_nil, List.mem_cons, List.not_mem_nil,
    or_false] at hc
  rcases hc with rfl | rfl <;> decide +kernel

/-- One block written by both columns. -/
def twoWrites : List BlockOp := [.write 0 0 ⟨396, fun _ => 1⟩, .write 0 1 ⟨52, fun _ => 2⟩]

example : let m' := twoWrites.foldl blockStep (newTable 3 3 2 tableMan)
    m'.nBlocks = 1 ∧ ∃ d, .write (m'.nBlocks - 1) (tableMan.columns.length - 1) d ∈ twoWrites := by
  have e : (twoWrites.foldl blockStep (newTable 3 3 2 tableMan)).nBlocks = 1 := by decide +kernel
  refine ⟨e, ⟨52, fun _ => 2⟩, ?_⟩
  rw [e]
  simp [twoWrites, tableMan]

end Dysco.StMan
