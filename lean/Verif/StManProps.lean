import Verif.HeaderProps

/-! # C34, C35, C39-C42: rows, layout, settings -/

namespace Dysco.StMan
open BytePacker Layout

/-! ## C34 -/

/-- **C34** Every row has exactly one position: block and row in block, with the row in block below the
rows per block, and the first row of the block plus the row in block is the row. -/
theorem row_position (m : Man) (h : areOffsetsInitialized m = true) (row : Nat) :
    getRowWithinBlock m row < m.rowsPerBlock ∧
    getRowIndex m (getBlockIndex m row) + getRowWithinBlock m row = row ∧
    ∀ b r, r < m.rowsPerBlock → getRowIndex m b + r = row →
      b = getBlockIndex m row ∧ r = getRowWithinBlock m row := by
  have hr : 0 < m.rowsPerBlock := by
    simp only [areOffsetsInitialized, bne_iff_ne] at h
    omega
  unfold getRowWithinBlock getRowIndex getBlockIndex
  refine ⟨Nat.mod_lt _ hr, by rw [Nat.mul_comm]; exact Nat.div_add_mod _ _, ?_⟩
  rintro b r hb rfl
  constructor
  · rw [Nat.mul_comm, Nat.mul_add_div hr, Nat.div_eq_of_lt hb, Nat.add_zero]
  · rw [Nat.mul_comm, Nat.mul_add_mod, Nat.mod_eq_of_lt hb]

/-- **C34** The other direction: a position gives one row, from which it is found again. -/
theorem position_row (m : Man) (b r : Nat) (hr : r < m.rowsPerBlock) :
    getBlockIndex m (getRowIndex m b + r) = b ∧ getRowWithinBlock m (getRowIndex m b + r) = r := by
  have h : areOffsetsInitialized m = true := by
    simp only [areOffsetsInitialized, bne_iff_ne]
    omega
  obtain ⟨_, _, h3⟩ := row_position m h (getRowIndex m b + r)
  exact ⟨(h3 b r hr rfl).1.symm, (h3 b r hr rfl).2.symm⟩

example : areOffsetsInitialized sampleMan = true := rfl

/-! ## C35 -/

/-- The columns follow each other without gaps from position `a` to `z`. -/
def Contiguous : List Column → Nat → Nat → Prop
  | [], a, z => a = z
  | c :: cs, a, z => c.offset = a ∧ Contiguous cs (a + c.blockSize) z

/-- Sum of the block sizes of the columns. -/
def totalSize (rows ants : Nat) (cs : List Column) : Nat := (cs.map fun c => c.calcSize rows ants).sum

theorem layout_spec {rows ants : Nat} (hr : rows < 2 ^ 32) (ha : ants < 2 ^ 32) (cs : List Column) (bs : Nat)
    (h : bs + totalSize rows ants cs < 2 ^ 32) :
    Contiguous (layoutColumns rows ants cs bs).1 bs (layoutColumns rows ants cs bs).2 ∧
    (layoutColumns rows ants cs bs).2 = bs + totalSize rows ants cs ∧
    (layoutColumns rows ants cs bs).1.length = cs.length ∧
    ∀ i (hi : i < cs.length) (hi' : i < (layoutColumns rows ants cs bs).1.length),
      (layoutColumns rows ants cs bs).1[i] = { cs[i] with
        offset := ((layoutColumns rows ants cs bs).1[i]).offset
        antennaCount := ants
        blockSize := cs[i].calcSize rows ants } := by
  induction cs generalizing bs with
  | nil =>
    refine ⟨rfl, rfl, rfl, fun i hi _ => ?_⟩
    simp at hi
  | cons c cs ih =>
    have ht : totalSize rows ants (c :: cs) = c.calcSize rows ants + totalSize rows ants cs := by
      simp [totalSize]
    rw [ht] at h ⊢
    have hm : (bs + c.calcSize rows ants) % 2 ^ 32 = bs + c.calcSize rows ants := Nat.mod_eq_of_lt (by omega)
    obtain ⟨h1, h2, h3, h4⟩ := ih (bs + c.calcSize rows ants) (by omega)
    simp only [layoutColumns, hm, Nat.mod_eq_of_lt hr, Nat.mod_eq_of_lt ha]
    refine ⟨⟨rfl, h1⟩, by rw [h2]; omega, by simp [h3], ?_⟩
    intro i hi hi'
    cases i with
    | zero => rfl
    | succ i =>
      simp only [List.getElem_cons_succ]
      exact h4 i (by simpa using hi) (by simpa [h3] using hi)

theorem contiguous_le {cs : List Column} {a z : Nat} (h : Contiguous cs a z) : a ≤ z := by
  induction cs generalizing a with
  | nil => exact le_of_eq h
  | cons c cs ih => have := ih h.2; omega

theorem contiguous_inside {cs : List Column} {a z : Nat} (h : Contiguous cs a z) (i : Nat)
    (hi : i < cs.length) : a ≤ cs[i].offset ∧ cs[i].offset + cs[i].blockSize ≤ z := by
  induction cs generalizing a i with
  | nil => simp at hi
  | cons c cs ih =>
    obtain ⟨h1, h2⟩ := h
    cases i with
    | zero =>
      simp only [List.getElem_cons_zero]
      have := contiguous_le h2
      omega
    | succ i =>
      simp only [List.getElem_cons_succ]
      have := ih h2 i (by simpa using hi)
      omega

theorem contiguous_before {cs : List Column} {a z : Nat} (h : Contiguous cs a z) (i j : Nat) (hij : i < j)
    (hj : j < cs.length) : cs[i].offset + cs[i].blockSize ≤ cs[j].offset := by
  induction cs generalizing a i j with
  | nil => simp at hj
  | cons c cs ih =>
    obtain ⟨h1, h2⟩ := h
    cases j with
    | zero => omega
    | succ j =>
      have hj' : j < cs.length := by simpa using hj
      cases i with
      | zero =>
        simp only [List.getElem_cons_zero, List.getElem_cons_succ]
        have := (contiguous_inside h2 j hj').1
        omega
      | succ i =>
        simp only [List.getElem_cons_succ]
        exact ih h2 i j (by omega) hj'

theorem contiguous_next {cs : List Column} {a z : Nat} (h : Contiguous cs a z) (i : Nat)
    (hi : i < cs.length) :
    if hn : i + 1 < cs.length then cs[i].offset + cs[i].blockSize = (cs[i + 1]'hn).offset
    else cs[i].offset + cs[i].blockSize = z := by
  induction cs generalizing a i with
  | nil => simp at hi
  | cons c cs ih =>
    obtain ⟨h1, h2⟩ := h
    cases i with
    | zero =>
      cases cs with
      | nil =>
        simp only [List.length_cons, List.length_nil, Nat.zero_add, lt_self_iff_false, dif_neg,
          not_false_eq_true, List.getElem_cons_zero]
        rw [h1]; exact h2
      | cons d ds =>
        simp only [List.length_cons]
        rw [dif_pos (by omega)]
        simp only [List.getElem_cons_zero, List.getElem_cons_succ]
        rw [h1]; exact h2.1.symm
    | succ i =>
      have := ih h2 i (by simpa using hi)
      simp only [List.length_cons, List.getElem_cons_succ] at this ⊢
      by_cases hn : i + 1 < cs.length
      · rw [dif_pos hn] at this
        rw [dif_pos (by omega)]
        exact this
      · rw [dif_neg hn] at this
        rw [dif_neg (by omega)]
        exact this

/-- First byte of the region of column `c` in block `b`. -/
def regionStart (m : Man) (b : Nat) (c : Column) : Nat := getFileOffset m b + c.offset

theorem regions_disjoint {m : Man} (h : Contiguous m.columns 0 m.blockSize) {b b' i i' : Nat}
    (hi : i < m.columns.length) (hi' : i' < m.columns.length) (hne : b ≠ b' ∨ i ≠ i') :
    regionStart m b m.columns[i] + m.columns[i].blockSize ≤ regionStart m b' m.columns[i'] ∨
    regionStart m b' m.columns[i'] + m.columns[i'].blockSize ≤ regionStart m b m.columns[i] := by
  have h1 := contiguous_inside h i hi
  have h2 := contiguous_inside h i' hi'
  have hb : ∀ x y : Nat, x < y → m.blockSize * x + m.blockSize ≤ m.blockSize * y := by
    intro x y hxy
    have := Nat.mul_le_mul_left m.blockSize (show x + 1 ≤ y from hxy)
    rw [Nat.mul_add, Nat.mul_one] at this
    exact this
  unfold regionStart getFileOffset
  rcases Nat.lt_trichotomy b b' with h3 | h3 | h3
  · left; have := hb b b' h3; omega
  · subst h3
    rcases Nat.lt_trichotomy i i' with h4 | h4 | h4
    · left; have := contiguous_before h i i' h4 hi'; omega
    · exact absurd h4 (hne.resolve_left (by simp))
    · right; have := contiguous_before h i' i h4 hi; omega
  · right; have := hb b' b h3; omega

/-- **C35** After the layout is fixed for any list of columns (sum of the block sizes below `2^32`):
the regions of different (block, column) pairs do not overlap, every region starts after the header, has
the size the column writes, and the regions of a block follow each other and fill the block. -/
theorem layout_regions (m : Man) (rows ants : Nat) (hr : rows < 2 ^ 32) (ha : ants < 2 ^ 32) (write : Bool)
    (hok : (initializeRowsPerBlock rows ants write m).2 = true)
    (ht : totalSize rows ants m.columns < 2 ^ 32) :
    let m' := (initializeRowsPerBlock rows ants write m).1
    m'.columns.length = m.columns.length ∧ m'.rowsPerBlock = rows ∧ m'.antennaCount = ants ∧
    m'.blockSize = totalSize rows ants m.columns ∧
    (∀ i (hi : i < m'.columns.length) (hi' : i < m.columns.length),
      m'.columns[i].blockSize = m.columns[i].calcSize rows ants) ∧
    (∀ b b' i i' (hi : i < m'.columns.length) (hi' : i' < m'.columns.length), (b ≠ b' ∨ i ≠ i') →
      regionStart m' b m'.columns[i] + m'.columns[i].blockSize ≤ regionStart m' b' m'.columns[i'] ∨
      regionStart m' b' m'.columns[i'] + m'.columns[i'].blockSize ≤ regionStart m' b m'.columns[i]) ∧
    (∀ b i (hi : i < m'.columns.length), m'.headerSize ≤ regionStart m' b m'.columns[i]) ∧
    (∀ b (h0 : 0 < m'.columns.length), regionStart m' b m'.columns[0] = getFileOffset m' b) ∧
    (∀ b i (hi : i < m'.columns.length), if hn : i + 1 < m'.columns.length then
        regionStart m' b m'.columns[i] + m'.columns[i].blockSize = regionStart m' b (m'.columns[i + 1]'hn)
      else regionStart m' b m'.columns[i] + m'.columns[i].blockSize = getFileOffset m' (b + 1)) := by
  obtain ⟨h1, h2, h3, h4⟩ := layout_spec hr ha m.columns 0 (by omega)
  have hcols : (initializeRowsPerBlock rows ants write m).1.columns = (layoutColumns rows ants m.columns 0).1 ∧
      (initializeRowsPerBlock rows ants write m).1.blockSize = (layoutColumns rows ants m.columns 0).2 ∧
      (initializeRowsPerBlock rows ants write m).1.rowsPerBlock = rows ∧
      (initializeRowsPerBlock rows ants write m).1.antennaCount = ants := by
    unfold initializeRowsPerBlock at hok ⊢
    split at hok
    · simp at hok
    · rename_i hc
      rw [if_neg hc]
      cases write
      · exact ⟨rfl, rfl, Nat.mod_eq_of_lt hr, Nat.mod_eq_of_lt ha⟩
      · simp only [if_true, writeHeader]
        split
        · exact ⟨rfl, rfl, Nat.mod_eq_of_lt hr, Nat.mod_eq_of_lt ha⟩
        · exact ⟨rfl, rfl, Nat.mod_eq_of_lt hr, Nat.mod_eq_of_lt ha⟩
  generalize (initializeRowsPerBlock rows ants write m).1 = m' at hcols
  obtain ⟨c1, c2, c3, c4⟩ := hcols
  have hcont : Contiguous m'.columns 0 m'.blockSize := by rw [c1, c2]; exact h1
  intro m''
  have hm : m'' = m' := rfl
  clear_value m''
  subst hm
  refine ⟨by rw [c1, h3], c3, c4, by rw [c2, h2, Nat.zero_add], ?_, ?_, ?_, ?_, ?_⟩
  · intro i hi hi'
    simp only [c1]
    rw [h4 i hi' (by rw [h3]; exact hi')]
  · intro b b' i i' hi hi' hne
    exact regions_disjoint hcont hi hi' hne
  · intro b i hi
    unfold regionStart getFileOffset
    omega
  · intro b h0
    have : m''.columns[0].offset = 0 := by
      revert hcont h0
      cases m''.columns with
      | nil => intro _ h0; simp at h0
      | cons c cs => intro hc _; exact hc.1
    unfold regionStart
    rw [this, Nat.add_zero]
  · intro b i hi
    have := contiguous_next hcont i hi
    by_cases hn : i + 1 < m''.columns.length
    · rw [dif_pos hn] at this ⊢
      unfold regionStart
      omega
    · rw [dif_neg hn] at this ⊢
      unfold regionStart getFileOffset
      rw [Nat.mul_add, Nat.mul_one]
      omega

/-- The layout of a data and a weight column of four rows and two antennas. -/
example : (initializeRowsPerBlock 4 2 true { sampleMan with rowsPerBlock := 0 }).2 = true ∧
    totalSize 4 2 sampleMan.columns < 2 ^ 32 := ⟨rfl, by decide⟩

/-! ## C39 -/

/-- **C39** For every manager with bit counts of at least one and a Gaussian, uniform or truncated Gaussian
distribution, the manager made from its record has the same settings. -/
theorem spec_round_trip (m : Man) (h1 : 1 ≤ m.dataBitCount) (h2 : 1 ≤ m.weightBitCount)
    (hd : m.distribution = 0 ∨ m.distribution = 1 ∨ m.distribution = 3) (hn : m.normalization ≤ 2)
    (name : List Byte) :
    ∃ m', ofSpec name (some (dataManagerSpec m)) = some m' ∧ m'.dataBitCount = m.dataBitCount ∧
      m'.weightBitCount = m.weightBitCount ∧ m'.distribution = m.distribution ∧
      m'.normalization = m.normalization ∧ m'.studentTNu = m.studentTNu ∧
      m'.distributionTruncation = m.distributionTruncation ∧ m'.columns = [] ∧ m'.name = name := by
  have hd' : distributionOf (distributionName m.distribution) = some m.distribution := by
    rcases hd with h | h | h <;> rw [h] <;> decide
  have hn' : normalizationOf (normalizationName m.normalization) = some m.normalization := by
    have : m.normalization = 0 ∨ m.normalization = 1 ∨ m.normalization = 2 := by omega
    rcases this with h | h | h <;> rw [h] <;> decide
  refine ⟨⟨0, 0, 0, 0, 0, 0, name, m.dataBitCount, m.weightBitCount, m.distribution, m.normalization,
      m.studentTNu, m.distributionTruncation, [], ⟨0, fun _ => 0⟩, false⟩, ?_, rfl, rfl, rfl, rfl, rfl, rfl,
    rfl, rfl⟩
  · unfold ofSpec
    simp only
    rw [if_neg (show ¬ (dataManagerSpec m).dataBitCount = 0 from by show ¬ m.dataBitCount = 0; omega),
      if_neg (show ¬ (dataManagerSpec m).weightBitCount = 0 from by show ¬ m.weightBitCount = 0; omega)]
    simp only [dataManagerSpec]
    rw [hd', hn']
    rfl

/-- **C39** The record of a manager with a Student-t distribution is always refused. -/
theorem spec_students_refused (m : Man) (hd : m.distribution = 2) (name : List Byte) :
    ofSpec name (some (dataManagerSpec m)) = none := by
  have hd' : distributionOf (distributionName m.distribution) = none := by rw [hd]; decide
  simp only [ofSpec, dataManagerSpec]
  rw [hd']
  simp

/-- **C39** A bit count of zero is refused. -/
theorem spec_zero_refused (s : Spec) (h : s.dataBitCount = 0 ∨ s.weightBitCount = 0) (name : List Byte) :
    ofSpec name (some s) = none := by
  simp only [ofSpec]
  rcases h with h | h
  · rw [if_pos h]
  · rw [if_pos h]
    split <;> rfl

example : 1 ≤ sampleMan.dataBitCount ∧ sampleMan.distribution = 3 ∧ sampleMan.normalization ≤ 2 := by decide

/-! ## C40 -/

/-- `addRow` and `removeRow`, dyscostman.cc:380-388. -/
inductive RowOp where
  | add (n : Nat)
  | remove (row : Nat)

/-- One call of `addRow` or `removeRow`, dyscostman.cc:380-388. -/
def rowStep (m : Man) : RowOp → Man
  | .add n => addRow n m
  | .remove r => (removeRow r m).1

/-- Abstract row count: removing is accepted only for the last row. -/
def rowSpec (n : Nat) : RowOp → Nat
  | .add k => n + k
  | .remove r => if r + 1 = n then n - 1 else n

/-- **C40** After any sequence of operations that stays within `2^32` rows, the row count is the initial
count plus the added rows minus the accepted removals. -/
theorem row_count (ops : List RowOp) (m : Man)
    (hb : ∀ k, (ops.take k).foldl rowSpec m.nRow < 2 ^ 32)
    (hr : ∀ r, .remove r ∈ ops → r < 2 ^ 32) :
    (ops.foldl rowStep m).nRow = ops.foldl rowSpec m.nRow := by
  induction ops generalizing m with
  | nil => rfl
  | cons op ops ih =>
    have h0 : m.nRow < 2 ^ 32 := by simpa using hb 0
    have h1 : rowSpec m.nRow op < 2 ^ 32 := by simpa using hb 1
    have hstep : (rowStep m op).nRow = rowSpec m.nRow op := by
      cases op with
      | add n =>
        simp only [rowStep, addRow, rowSpec] at h1 ⊢
        omega
      | remove r =>
        have := hr r (by simp)
        simp only [rowStep, removeRow, rowSpec] at h1 ⊢
        by_cases h : r + 1 = m.nRow
        · rw [if_pos h, if_neg (show ¬ r ≠ (m.nRow + (2 ^ 64 - 1)) % 2 ^ 64 by omega)]
          simp only
          omega
        · rw [if_neg h, if_pos (show r ≠ (m.nRow + (2 ^ 64 - 1)) % 2 ^ 64 by omega)]
    rw [List.foldl_cons, List.foldl_cons, ih (rowStep m op), hstep]
    · intro k
      rw [hstep]
      simpa using hb (k + 1)
    · exact fun r h => hr r (by simp [h])

/-- **C40** A removal is accepted exactly for the last row, and a refused one changes nothing. -/
theorem remove_spec (m : Man) (row : Nat) (h : m.nRow < 2 ^ 64) (hr : row < 2 ^ 32) :
    ((removeRow row m).2 = true ↔ m.nRow ≠ 0 ∧ row = m.nRow - 1) ∧
    ((removeRow row m).2 = false → (removeRow row m).1 = m) ∧
    ((removeRow row m).2 = true → (removeRow row m).1.nRow + 1 = m.nRow) := by
  unfold removeRow
  by_cases hc : row ≠ (m.nRow + (2 ^ 64 - 1)) % 2 ^ 64
  · rw [if_pos hc]
    refine ⟨⟨fun h => by simp at h, fun ⟨h1, h2⟩ => absurd ?_ hc⟩, fun _ => rfl, fun h => by simp at h⟩
    omega
  · rw [if_neg hc]
    refine ⟨⟨fun _ => by omega, fun _ => rfl⟩, fun h => by simp at h, fun _ => ?_⟩
    simp only
    omega

example : ∀ k, (([.add 3, .remove 2, .remove 0, .add 1] : List RowOp).take k).foldl rowSpec 0 < 2 ^ 32 := by
  intro k
  rcases k with _ | _ | _ | _ | k <;> simp [rowSpec]

/-! ## C41 -/

/-- **C41** Adding a column once a block was written is refused and changes nothing. -/
theorem addColumn_refused (m : Man) (h : m.nBlocks ≠ 0) : addColumn m = (m, false) := by
  unfold addColumn
  rw [if_pos h]

/-- **C41** Before that it is not refused, unless a bit count is missing: the header is rewritten. -/
theorem addColumn_accepted (m : Man) (h : m.nBlocks = 0) (hb : 1 ≤ m.dataBitCount ∧ 1 ≤ m.weightBitCount)
    (hok : m.failed = false) : (addColumn m).2 = true := by
  unfold addColumn
  rw [if_neg (by omega)]
  have : ∃ m1, prepare m = (m1, true) ∧ m1.failed = false := by
    unfold prepare
    rw [if_neg (by omega)]
    simp only
    split
    · unfold initializeRowsPerBlock
      rw [if_neg (by simp)]
      exact ⟨_, rfl, hok⟩
    · exact ⟨_, rfl, hok⟩
  obtain ⟨m1, e, h1⟩ := this
  rw [e]
  simp only
  unfold writeHeader
  rw [h1]
  rfl

/-- **C41** Removing a column keeps the block size and the positions of the other columns in a block and
does not move any stored byte after the new header, but the header becomes 24 bytes smaller, so the
manager now looks for every block 24 bytes before its place. -/
theorem removeColumn_shifts (m : Man) (i : Nat) (hi : i < m.columns.length) (hok : m.failed = false)
    (hs : 52 + m.name.length + 24 * m.columns.length < 2 ^ 32)
    (hh : m.headerSize = headerSizeOf m.name m.columns) :
    let m' := (removeColumn i m).1
    (removeColumn i m).2 = true ∧ m'.columns = m.columns.eraseIdx i ∧ m'.blockSize = m.blockSize ∧
    m'.headerSize + 24 = m.headerSize ∧
    (∀ b, getFileOffset m' b + 24 = getFileOffset m b) ∧
    (∀ j, m'.headerSize ≤ j → j < m.file.len → m'.file.get j = m.file.get j) := by
  have hl : (m.columns.eraseIdx i).length + 1 = m.columns.length := by
    rw [List.length_eraseIdx_of_lt hi]; omega
  have hs' : 52 + m.name.length + 24 * (m.columns.eraseIdx i).length < 2 ^ 32 := by omega
  have e1 := headerSizeOf_eq m.name (m.columns.eraseIdx i) hs'
  have e2 := headerSizeOf_eq m.name m.columns hs
  have hsize : headerSizeOf m.name (m.columns.eraseIdx i) + 24 = m.headerSize := by omega
  have e := writeHeader_ok (m := { m with columns := m.columns.eraseIdx i }) hok
  unfold removeColumn
  rw [if_pos hi]
  obtain ⟨_, _, h3⟩ := header_before_data { m with columns := m.columns.eraseIdx i } hok hs' 0
  have hlen := headerBytes_length { m with columns := m.columns.eraseIdx i }
  generalize hb : ({ m with columns := m.columns.eraseIdx i } : Man).headerBytes = hbs at e h3 hlen
  rw [e] at h3 ⊢
  simp only at h3 hlen ⊢
  refine ⟨trivial, trivial, trivial, hsize, fun b => ?_, fun j hj hl => h3 j (by omega) hl⟩
  unfold getFileOffset
  simp only
  omega

/-- **C41** So a remaining column then reads other bytes than were stored for it: whatever it reads at
position `k` of a block is what was stored 24 bytes earlier in the file. -/
theorem removeColumn_reads (m : Man) (i : Nat) (hi : i < m.columns.length) (hok : m.failed = false)
    (hs : 52 + m.name.length + 24 * m.columns.length < 2 ^ 32)
    (hh : m.headerSize = headerSizeOf m.name m.columns) (b : Nat) (c : Column) (k : Nat)
    (hk : regionStart m b c + k < m.file.len) :
    (removeColumn i m).1.file.get (regionStart (removeColumn i m).1 b c + k) =
      m.file.get (regionStart m b c + k - 24) := by
  obtain ⟨_, _, _, h4, h5, h6⟩ := removeColumn_shifts m i hi hok hs hh
  have := h5 b
  have h0 : (removeColumn i m).1.headerSize ≤ getFileOffset (removeColumn i m).1 b := by
    unfold getFileOffset; omega
  unfold regionStart at hk ⊢
  rw [h6 _ (by omega) (by omega)]
  congr 1
  omega

example : (1 : Nat) < sampleMan.columns.length ∧
    ({ sampleMan with headerSize := 102 } : Man).headerSize = headerSizeOf sampleMan.name sampleMan.columns := by
  decide

/-! ## C42, part of the manager -/

/-- **C42** Once the layout is fixed, another number of rows or antennas is refused, without change. -/
theorem init_refused (m : Man) (h : areOffsetsInitialized m = true) (rows ants : Nat)
    (hne : rows ≠ m.rowsPerBlock ∨ ants ≠ m.antennaCount) (write : Bool) :
    initializeRowsPerBlock rows ants write m = (m, false) := by
  unfold initializeRowsPerBlock
  rw [if_pos ⟨h, hne⟩]

theorem layout_idem (rows ants : Nat) (cs : List Column) (bs : Nat) :
    layoutColumns rows ants (layoutColumns rows ants cs bs).1 bs = layoutColumns rows ants cs bs := by
  induction cs generalizing bs with
  | nil => rfl
  | cons c cs ih =>
    simp only [layoutColumns, Column.calcSize, Column.metaCount, Column.symCount]
    have := ih ((bs + c.calcSize rows ants) % 2 ^ 32)
    simp only [Column.calcSize, Column.metaCount, Column.symCount] at this
    rw [this]

/-- **C42** Repeating the same values keeps the layout. -/
theorem init_repeat (m : Man) (rows ants : Nat) (hr : rows < 2 ^ 32) (ha : ants < 2 ^ 32) (w : Bool)
    (hok : (initializeRowsPerBlock rows ants w m).2 = true) :
    let m1 := (initializeRowsPerBlock rows ants w m).1
    initializeRowsPerBlock rows ants false m1 = (m1, true) := by
  unfold initializeRowsPerBlock at hok
  split at hok
  · simp at hok
  · rename_i hc
    have h1 : ∃ m2 : Man, (initializeRowsPerBlock rows ants w m).1 = m2 ∧ m2.rowsPerBlock = rows ∧
        m2.antennaCount = ants ∧ m2.columns = (layoutColumns rows ants m.columns 0).1 ∧
        m2.blockSize = (layoutColumns rows ants m.columns 0).2 := by
      unfold initializeRowsPerBlock
      rw [if_neg hc]
      cases w
      · exact ⟨_, rfl, Nat.mod_eq_of_lt hr, Nat.mod_eq_of_lt ha, rfl, rfl⟩
      · simp only [if_true, writeHeader]
        split
        · exact ⟨_, rfl, Nat.mod_eq_of_lt hr, Nat.mod_eq_of_lt ha, rfl, rfl⟩
        · exact ⟨_, rfl, Nat.mod_eq_of_lt hr, Nat.mod_eq_of_lt ha, rfl, rfl⟩
    obtain ⟨m2, e, a1, a2, a3, a4⟩ := h1
    intro m1
    have hm : m1 = m2 := e
    clear_value m1
    subst hm
    unfold initializeRowsPerBlock
    rw [if_neg (by rw [a1, a2]; simp)]
    simp only [Bool.false_eq_true, if_false, Prod.mk.injEq, and_true]
    rw [a3, layout_idem, Nat.mod_eq_of_lt hr, Nat.mod_eq_of_lt ha, ← a3, ← a4, ← a1, ← a2]

end Dysco.StMan
