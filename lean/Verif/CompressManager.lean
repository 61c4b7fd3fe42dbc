import Verif.CompressModel
import Verif.WorldEnd
import Verif.WorldSettings

/-!
# The manager that dscompress makes

Columns are added to the manager one by one, and every addition writes a header. As soon as the layout is fixed, the manager
and its file are those of a table that was created with all columns at once.

The examples are in `CompressSample.lean`.
-/

namespace Dysco.Compress
open Tools StMan BytePacker Prepare

/-- All settings and columns at once. -/
def whole (o : Options Nat Nat) (nPol nCh : Nat) (columns : List Arg) : Man :=
  { manager o with columns := columns.map (newColumn nPol nCh) }

theorem configured_twice (b : Man) (cs : List StMan.Column) : configured b (configured b cs) = configured b cs := by
  simp [configured]

theorem addColumns_spec {b : Man} (h1 : b.dataBitCount ≠ 0) (h2 : b.weightBitCount ≠ 0) (h0 : b.rowsPerBlock = 0)
    (hb : b.nBlocks = 0) (hok : b.failed = false) (nPol nCh : Nat) :
    ∀ (rest : List Arg) (pre : List StMan.Column) (f : Mem 8) (hs : Nat),
      f.len ≤ 52 + b.name.length + 12 * pre.length →
      ∃ f' hs', addColumns nPol nCh rest { b with columns := configured b pre, file := f, headerSize := hs } =
          ({ b with
              columns := configured b (pre ++ rest.map (newColumn nPol nCh)), file := f', headerSize := hs' }, true) ∧
        f'.len ≤ 52 + b.name.length + 12 * (pre ++ rest.map (newColumn nPol nCh)).length := by
  intro rest
  induction rest with
  | nil =>
    intro pre f hs hf
    exact ⟨f, hs, by simp [addColumns], by simpa using hf⟩
  | cons c rest ih =>
    intro pre f hs hf
    let m : Man := { b with columns := configured b pre ++ [newColumn nPol nCh c], file := f, headerSize := hs }
    let m1 : Man := { b with columns := configured b (pre ++ [newColumn nPol nCh c]), file := f, headerSize := hs }
    have hp : prepare m = (m1, true) := by
      rw [prepare_new (m := m) h1 h2 h0]
      congr 1
      show { m with columns := configured m m.columns } = m1
      have : configured m m.columns = configured b (pre ++ [newColumn nPol nCh c]) := by
        show configured b (configured b pre ++ [newColumn nPol nCh c]) = _
        simp [configured]
      rw [this]
    have ha : StMan.addColumn m = writeHeader m1 := by
      unfold StMan.addColumn
      rw [if_neg (by simp [m, hb]), hp]
    have hw : writeHeader m1 = ({ m1 with
        headerSize := headerSizeOf m1.name m1.columns, file := fwriteList f 0 m1.headerBytes }, true) := by
      unfold writeHeader
      rw [if_neg (by simp [m1, hok])]
    have hl : m1.headerBytes.length = 52 + b.name.length + 12 * (pre.length + 1) := by
      rw [headerBytes_length]
      simp [m1, configured]
    obtain ⟨f', hs', e, hf'⟩ := ih (pre ++ [newColumn nPol nCh c]) (fwriteList f 0 m1.headerBytes)
      (headerSizeOf m1.name m1.columns) (by
        have : (fwriteList f 0 m1.headerBytes).len = max f.len m1.headerBytes.length := by
          unfold fwriteList fwrite
          rw [if_neg (by omega)]
          simp
        rw [this, hl]
        simp only [List.length_append, List.length_singleton]
        omega)
    rw [List.append_assoc, List.singleton_append] at e hf'
    refine ⟨f', hs', ?_, hf'⟩
    rw [addColumns]
    show (match StMan.addColumn m with
      | (m', false) => (m', false)
      | (m', true) => addColumns nPol nCh rest m') = _
    rw [ha, hw]
    exact e

/-- A header that covers the whole old file. -/
theorem fwriteList_covers {f g : Mem 8} {l : List Byte} (hl : l ≠ []) (hf : f.len ≤ l.length) (hg : g.len ≤ l.length) :
    fwriteList f 0 l = fwriteList g 0 l := by
  have h0 : l.length ≠ 0 := fun h => hl (List.length_eq_zero_iff.1 h)
  unfold fwriteList fwrite
  rw [if_neg h0, if_neg h0]
  have e1 : max f.len (0 + l.length) = max g.len (0 + l.length) := by omega
  rw [e1]
  congr 1
  funext j
  by_cases hj : 0 ≤ j ∧ j < 0 + l.length
  · rw [if_pos hj, if_pos hj]
  · rw [if_neg hj, if_neg hj, if_neg (by omega), if_neg (by omega)]

theorem manager_fields (o : Options Nat Nat) : (manager o).rowsPerBlock = 0 ∧ (manager o).columns = [] ∧
    (manager o).dataBitCount = o.bitsPerFloat ∧ (manager o).weightBitCount = o.bitsPerWeight ∧
    (manager o).distribution = distributionNumber o.distribution ∧
    (manager o).normalization = normalizationNumber o.normalization ∧
    (manager o).studentTNu = (if o.distribution = .studentsT then oneBits else 0) ∧
    (manager o).distributionTruncation =
      (if o.distribution = .truncatedGaussian then o.truncation else defaultTruncation) ∧
    (manager o).name.length = 10 := by
  have hn : (constructed o.bitsPerFloat o.bitsPerWeight).name.length = 10 := by
    show ("DyscoStMan".toUTF8.toList.map fun b => BitVec.ofNat 8 b.toNat).length = 10
    decide +kernel
  unfold manager
  cases hd : o.distribution <;> exact ⟨rfl, rfl, rfl, rfl, rfl, rfl, rfl, rfl, hn⟩

theorem layoutColumns_length (r a : Nat) : ∀ (cs : List StMan.Column) (k : Nat),
    (layoutColumns r a cs k).1.length = cs.length := by
  intro cs
  induction cs with
  | nil => intro k; rfl
  | cons x cs ih => intro k; simp [layoutColumns, ih]

/-- Fixing the layout writes a header over what was in the file. -/
theorem initialize_covers {b : Man} (h0 : b.rowsPerBlock = 0) (hok : b.failed = false)
    (hb : b.file.len ≤ 52 + b.name.length + 12 * b.columns.length) {f : Mem 8}
    (hf : f.len ≤ 52 + b.name.length + 12 * b.columns.length) (hs rows ants : Nat) :
    (initializeRowsPerBlock rows ants true { b with file := f, headerSize := hs }).1 =
      (initializeRowsPerBlock rows ants true b).1 := by
  have n1 : areOffsetsInitialized b = false := by
    show (b.rowsPerBlock != 0) = false
    rw [h0]; rfl
  have n2 : areOffsetsInitialized { b with file := f, headerSize := hs } = false := n1
  unfold initializeRowsPerBlock
  rw [n1, n2]
  simp only [Bool.false_eq_true, false_and, if_false, if_true]
  generalize hl : layoutColumns rows ants b.columns 0 = lay
  have hlen : lay.1.length = b.columns.length := by rw [← hl]; exact layoutColumns_length _ _ _ _
  let m1 : Man := { b with rowsPerBlock := rows % 2 ^ 32, antennaCount := ants % 2 ^ 32, columns := lay.1, blockSize := lay.2 }
  have hh : m1.headerBytes.length = 52 + b.name.length + 12 * b.columns.length := by
    rw [headerBytes_length, ← hlen]
  have h1 : (writeHeader m1).1 = { m1 with
      headerSize := headerSizeOf m1.name m1.columns, file := fwriteList b.file 0 m1.headerBytes } := by
    unfold writeHeader
    rw [if_neg (by rw [show m1.failed = b.failed from rfl, hok]; simp)]
  have h2 : (writeHeader { m1 with file := f, headerSize := hs }).1 = { m1 with
      headerSize := headerSizeOf m1.name m1.columns, file := fwriteList f 0 m1.headerBytes } := by
    have : ({ m1 with file := f, headerSize := hs } : Man).headerBytes = m1.headerBytes := by
      unfold Man.headerBytes
      rfl
    unfold writeHeader
    rw [if_neg (by rw [show ({ m1 with file := f, headerSize := hs } : Man).failed = b.failed from rfl, hok]; simp), this]
  refine h2.trans (Eq.trans ?_ h1.symm)
  rw [fwriteList_covers (f := f) (g := b.file) (l := m1.headerBytes) ?_ (by omega) (by omega)]
  intro h
  rw [h] at hh
  simp at hh
  omega

/-- The manager after all columns were made differs from one that was created with all columns only in the header that is
in the file; when the layout is fixed, they are the same. -/
theorem createColumns_spec (o : Options Nat Nat) (hd : o.bitsPerFloat ≠ 0) (hw : o.bitsPerWeight ≠ 0)
    (nRow nPol nCh : Nat) {columns : List Arg} (hc : columns ≠ []) :
    ∃ m, createColumns o nRow nPol nCh columns = (m, true) ∧ SameSettings m (manager o) ∧
      ∀ rows ants, (initializeRowsPerBlock rows ants true m).1 =
        (initializeRowsPerBlock rows ants true (prepare (create nRow (whole o nPol nCh columns))).1).1 := by
  obtain ⟨c, rest, rfl⟩ := List.exists_cons_of_ne_nil hc
  obtain ⟨f1, -, f3, f4, -, -, -, -, -⟩ := manager_fields o
  have hd' : (manager o).dataBitCount ≠ 0 := by rw [f3]; exact hd
  have hw' : (manager o).weightBitCount ≠ 0 := by rw [f4]; exact hw
  let b : Man := create nRow (manager o)
  have p1 : prepare (create nRow { manager o with columns := [newColumn nPol nCh c] }) =
      ({ b with columns := configured b [newColumn nPol nCh c] }, true) :=
    prepare_new (m := create nRow { manager o with columns := [newColumn nPol nCh c] }) hd' hw' f1
  have p2 : prepare (create nRow (whole o nPol nCh (c :: rest))) =
      ({ b with columns := configured b ((c :: rest).map (newColumn nPol nCh)) }, true) :=
    prepare_new (m := create nRow (whole o nPol nCh (c :: rest))) hd' hw' f1
  obtain ⟨f', hs', e, hl⟩ := addColumns_spec (b := b) hd' hw' f1 rfl rfl nPol nCh rest [newColumn nPol nCh c]
    b.file b.headerSize (by show 0 ≤ _; omega)
  refine ⟨{ b with
      columns := configured b ([newColumn nPol nCh c] ++ rest.map (newColumn nPol nCh)), file := f', headerSize := hs' },
    ?_, ⟨rfl, rfl, rfl, rfl, rfl, rfl, rfl⟩, fun rows ants => ?_⟩
  · rw [createColumns, p1]
    exact e
  · rw [p2]
    refine initialize_covers (b := { b with columns := configured b ((c :: rest).map (newColumn nPol nCh)) }) f1 rfl ?_ ?_
      hs' rows ants
    · show 0 ≤ _
      omega
    · simpa [configured] using hl

end Dysco.Compress
