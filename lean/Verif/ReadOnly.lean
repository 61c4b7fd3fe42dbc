import Verif.ReopenProps

/-! # C119: files that cannot be written

`open` falls back to a stream without `ios_base::out` (dyscostman.cc:287-293), and `reopenRW` does nothing
(dyscostman.cc:378). The operations of the manager are modelled here for both kinds of stream. -/

namespace Dysco.StMan
open BytePacker Layout

/-- `writeHeader`, dyscostman.cc:178-211, on a stream that was opened for writing or not. Writing to a stream
without `ios_base::out` sets its bad bit, which `fail()` reports; the size of the header is set before. -/
def headerIn (w : Bool) (m : Man) : Man × Bool :=
  if w then writeHeader m else ({ m with headerSize := headerSizeOf m.name m.columns, failed := true }, false)

/-- `writeCompressedData`, dyscostman.cc:432-445, on both kinds of stream. Writing zero bytes does not fail. -/
def dataIn (w : Bool) (block : Nat) (c : Column) (data : Mem 8) (size : Nat) (m : Man) : Man × Bool :=
  if w then writeCompressedData block c data size m else
  let m1 := { m with nBlocks := if m.nBlocks ≤ block then block + 1 else m.nBlocks }
  if m.failed ∨ size ≠ 0 then ({ m1 with failed := true }, false) else (m1, true)

/-- `initializeRowsPerBlock`, dyscostman.cc:261-282, on both kinds of stream. -/
def initIn (w : Bool) (rows ants : Nat) (write : Bool) (m : Man) : Man × Bool :=
  if write then
    match initializeRowsPerBlock rows ants false m with
    | (m1, false) => (m1, false)
    | (m1, true) => headerIn w m1
  else initializeRowsPerBlock rows ants false m

/-- `addColumn`, dyscostman.cc:390-397, on both kinds of stream. -/
def addColumnIn (w : Bool) (m : Man) : Man × Bool :=
  if m.nBlocks ≠ 0 then (m, false) else
  match prepare m with
  | (m1, false) => (m1, false)
  | (m1, true) => headerIn w m1

/-- `removeColumn`, dyscostman.cc:399-411, on both kinds of stream. -/
def removeColumnIn (w : Bool) (i : Nat) (m : Man) : Man × Bool :=
  if i < m.columns.length then headerIn w { m with columns := m.columns.eraseIdx i } else (m, false)

/-- What casacore and the columns ask of a manager with an open file. -/
inductive ManOp where
  /-- a column writes or reads a block (threadeddyscocolumn.cc:80 reads existing blocks only), or the header is
  written -/
  | block (op : BlockOp)
  | addRow (n : Nat)
  | removeRow (row : Nat)
  | prepare
  | init (rows ants : Nat) (write : Bool)
  | addColumn
  | removeColumn (i : Nat)
  | reopenRW

/-- What the caller sees. Not in the code. -/
inductive Seen where
  | threw
  | done
  /-- the buffer after reading -/
  | got (dest : Mem 8)

/-- Whether a call raised an exception. Not in the code. -/
def seen (r : Man × Bool) : Man × Seen := (r.1, if r.2 then .done else .threw)

/-- One call on the manager; `w`: the stream was opened for writing. dyscostman.cc:178-211, 261-282, 306-324, 378-445. -/
def manStep (w : Bool) (m : Man) : ManOp → Man × Seen
  | .block (.write b i data) =>
    match m.columns[i]? with
    | none => (m, .done)
    | some c => seen (dataIn w b c data c.blockSize m)
  | .block (.read b i dest) =>
    match m.columns[i]? with
    | none => (m, .done)
    | some c =>
      if b < m.nBlocks then
        let r := readCompressedData b c dest c.blockSize m
        (r.1, if r.2.2 then .got r.2.1 else .threw)
      else (m, .done)
  | .block .header => seen (headerIn w m)
  | .addRow n => (StMan.addRow n m, .done)
  | .removeRow row => seen (StMan.removeRow row m)
  | .prepare => seen (StMan.prepare m)
  | .init rows ants write => seen (initIn w rows ants write m)
  | .addColumn => seen (addColumnIn w m)
  | .removeColumn i => seen (removeColumnIn w i m)
  | .reopenRW => (m, .done)

/-- A sequence of calls, with what the caller sees. Not in the code. -/
def manRun (w : Bool) (m : Man) : List ManOp → Man × List Seen
  | [] => (m, [])
  | op :: ops =>
    let r := manStep w m op
    let rest := manRun w r.1 ops
    (rest.1, r.2 :: rest.2)

/-! ## With a writable stream these are the operations of the other files -/

theorem initIn_true (rows ants : Nat) (write : Bool) (m : Man) :
    initIn true rows ants write m = initializeRowsPerBlock rows ants write m := by
  unfold initIn initializeRowsPerBlock headerIn
  cases write <;> by_cases h : areOffsetsInitialized m = true ∧ (rows ≠ m.rowsPerBlock ∨ ants ≠ m.antennaCount) <;>
    simp [h]

theorem addColumnIn_true (m : Man) : addColumnIn true m = addColumn m := rfl

theorem removeColumnIn_true (i : Nat) (m : Man) : removeColumnIn true i m = removeColumn i m := rfl

theorem manStep_block (m : Man) (op : BlockOp) : (manStep true m (.block op)).1 = blockStep m op := by
  cases op with
  | write b i d =>
    simp only [manStep, blockStep]
    cases m.columns[i]? <;> rfl
  | read b i d =>
    simp only [manStep, blockStep]
    cases m.columns[i]? with
    | none => rfl
    | some c => by_cases h : b < m.nBlocks <;> simp [h]
  | header => rfl

/-! ## Without a writable stream -/

theorem prepare_file (m : Man) : (prepare m).1.file = m.file := by
  unfold prepare
  split
  · rfl
  · dsimp only
    split
    · unfold initializeRowsPerBlock
      split
      · rfl
      · rfl
    · rfl

theorem init_file (rows ants : Nat) (m : Man) : (initializeRowsPerBlock rows ants false m).1.file = m.file := by
  unfold initializeRowsPerBlock
  split <;> rfl

theorem read_file (b : Nat) (c : Column) (dest : Mem 8) (size : Nat) (m : Man) :
    (readCompressedData b c dest size m).1.file = m.file := by
  unfold readCompressedData
  dsimp only
  split
  · split <;> rfl
  · rfl

theorem removal_file (k row : Nat) (m : Man) (r : Man × Bool)
    (h : r = if row ≠ k then (m, false) else ({ m with nRow := k }, true)) : r.1.file = m.file := by
  subst h
  split <;> rfl

theorem removeRow_file (row : Nat) (m : Man) : (removeRow row m).1.file = m.file :=
  removal_file ((m.nRow + (2 ^ 64 - 1)) % 2 ^ 64) row m _ (by unfold removeRow; rfl)

theorem headerIn_file (m : Man) : (headerIn false m).1.file = m.file := rfl

theorem dataIn_file (b : Nat) (c : Column) (d : Mem 8) (n : Nat) (m : Man) :
    (dataIn false b c d n m).1.file = m.file := by
  unfold dataIn
  by_cases h : m.failed = true ∨ n ≠ 0 <;> simp [h]

theorem initIn_file (rows ants : Nat) (write : Bool) (m : Man) :
    (initIn false rows ants write m).1.file = m.file := by
  unfold initIn
  have h := init_file rows ants m
  revert h
  rcases initializeRowsPerBlock rows ants false m with ⟨m1, b⟩
  intro h
  cases write
  · exact h
  · cases b
    · exact h
    · exact (headerIn_file m1).trans h

theorem addColumnIn_file (m : Man) : (addColumnIn false m).1.file = m.file := by
  unfold addColumnIn
  have h := prepare_file m
  revert h
  rcases prepare m with ⟨m1, b⟩
  intro h
  by_cases hn : m.nBlocks ≠ 0
  · rw [if_pos hn]
  · rw [if_neg hn]
    cases b
    · exact h
    · exact (headerIn_file m1).trans h

theorem removeColumnIn_file (i : Nat) (m : Man) : (removeColumnIn false i m).1.file = m.file := by
  unfold removeColumnIn
  by_cases hi : i < m.columns.length
  · rw [if_pos hi]; exact headerIn_file _
  · rw [if_neg hi]

theorem step_file (m : Man) (op : ManOp) : (manStep false m op).1.file = m.file := by
  match op with
  | .block (.write b i d) =>
    simp only [manStep]
    cases m.columns[i]? with
    | none => rfl
    | some c => exact dataIn_file ..
  | .block (.read b i d) =>
    simp only [manStep]
    cases m.columns[i]? with
    | none => rfl
    | some c =>
      dsimp only
      split
      · exact read_file ..
      · rfl
  | .block .header => exact headerIn_file m
  | .addRow n => rfl
  | .removeRow row => exact removeRow_file row m
  | .prepare => exact prepare_file m
  | .init rows ants write => exact initIn_file rows ants write m
  | .addColumn => exact addColumnIn_file m
  | .removeColumn i => exact removeColumnIn_file i m
  | .reopenRW => rfl

/-- C119: whatever is asked of a manager whose file could not be opened for writing, the file stays as it is. -/
theorem readonly_file (ops : List ManOp) (m : Man) : (manRun false m ops).1.file = m.file := by
  induction ops generalizing m with
  | nil => rfl
  | cons op ops ih => exact (ih _).trans (step_file m op)

/-- The operations that do not write to the stream. -/
def Quiet : ManOp → Prop
  | .block (.read ..) | .addRow _ | .removeRow _ | .prepare | .init _ _ false | .reopenRW => True
  | _ => False

/-- C119: a program that does not write sees the same with a file that could not be opened for writing. -/
theorem readonly_same (ops : List ManOp) (hq : ∀ op ∈ ops, Quiet op) (m : Man) :
    manRun false m ops = manRun true m ops := by
  induction ops generalizing m with
  | nil => rfl
  | cons op ops ih =>
    have h : manStep false m op = manStep true m op := by
      match op, hq op (by simp) with
      | .block (.read ..), _ => rfl
      | .addRow _, _ => rfl
      | .removeRow _, _ => rfl
      | .prepare, _ => rfl
      | .init _ _ false, _ => rfl
      | .reopenRW, _ => rfl
    simp only [manRun, h]
    rw [ih (fun o ho => hq o (by simp [ho]))]

/-- The operations that write to the stream of the manager `m`, unless they are refused before. -/
def Writes (m : Man) : ManOp → Prop
  | .block (.write _ i _) => ∃ c, m.columns[i]? = some c ∧ c.blockSize ≠ 0
  | .block .header | .init _ _ true | .addColumn | .removeColumn _ => True
  | _ => False

/-- C119: an operation that writes raises an exception; nothing is lost silently. -/
theorem readonly_throws (m : Man) (op : ManOp) (h : Writes m op) : (manStep false m op).2 = .threw := by
  match op, h with
  | .block (.write b i d), ⟨c, hc, hs⟩ => simp [manStep, hc, seen, dataIn, hs]
  | .block .header, _ => rfl
  | .init rows ants true, _ =>
    simp only [manStep, seen, initIn, if_true]
    rcases initializeRowsPerBlock rows ants false m with ⟨m1, b⟩
    cases b <;> simp [headerIn]
  | .addColumn, _ =>
    simp only [manStep, seen, addColumnIn]
    split
    · rfl
    · rcases StMan.prepare m with ⟨m1, b⟩
      cases b <;> simp [headerIn]
  | .removeColumn i, _ =>
    simp only [manStep, seen, removeColumnIn]
    split <;> rfl

/-! ## The fail bit stays set -/

/-- C119 (negative): after an exception of a block write, reading a block before the last raises an exception,
and reading the last block is reported as successful but leaves the buffer as it was, whatever the file holds.
The count of blocks includes the block that was not written. -/
theorem readonly_stale (m : Man) (b i : Nat) (data : Mem 8) (c : Column) (hc : m.columns[i]? = some c)
    (hs : c.blockSize ≠ 0) (b' j : Nat) (dest : Mem 8) (hj : j < m.columns.length) :
    let m1 := (manStep false m (.block (.write b i data))).1
    m1.nBlocks = max m.nBlocks (b + 1) ∧
    (b' + 1 = m1.nBlocks → (manStep false m1 (.block (.read b' j dest))).2 = .got dest) ∧
    (b' + 1 < m1.nBlocks → (manStep false m1 (.block (.read b' j dest))).2 = .threw) ∧
    (m1.nBlocks ≤ b' → (manStep false m1 (.block (.read b' j dest))).2 = .done) := by
  have hm : (manStep false m (.block (.write b i data))).1 =
      { m with nBlocks := if m.nBlocks ≤ b then b + 1 else m.nBlocks, failed := true } := by
    simp [manStep, hc, seen, dataIn, hs]
  obtain ⟨c', hc'⟩ : ∃ c', m.columns[j]? = some c' := ⟨_, List.getElem?_eq_getElem hj⟩
  simp only [hm]
  refine ⟨by split <;> omega, fun h => ?_, fun h => ?_, fun h => ?_⟩
  · have h1 : b' < (if m.nBlocks ≤ b then b + 1 else m.nBlocks) := by omega
    simp [manStep, hc', h1, readCompressedData, h]
  · have h1 : b' < (if m.nBlocks ≤ b then b + 1 else m.nBlocks) := by omega
    have h2 : b' + 1 ≠ (if m.nBlocks ≤ b then b + 1 else m.nBlocks) := by omega
    simp [manStep, hc', h1, readCompressedData, h2]
  · have h1 : ¬ b' < (if m.nBlocks ≤ b then b + 1 else m.nBlocks) := by omega
    simp [manStep, hc', h1]

theorem headerIn_failed (w : Bool) (m : Man) (h : m.failed = true) : (headerIn w m).1.failed = true := by
  unfold headerIn writeHeader
  cases w <;> simp [h]

theorem init_failed (rows ants : Nat) (m : Man) : (initializeRowsPerBlock rows ants false m).1.failed = m.failed := by
  unfold initializeRowsPerBlock
  split <;> rfl

theorem prepare_failed (m : Man) : (prepare m).1.failed = m.failed := by
  unfold prepare
  split
  · rfl
  · dsimp only
    split
    · exact init_failed _ _ _
    · rfl

theorem removal_failed (k row : Nat) (m : Man) (r : Man × Bool)
    (h : r = if row ≠ k then (m, false) else ({ m with nRow := k }, true)) : r.1.failed = m.failed := by
  subst h
  split <;> rfl

/-- C119: a failed stream stays failed, whatever is asked of the manager, `reopenRW` included, until the last block is
read. -/
theorem failed_stays (w : Bool) (m : Man) (op : ManOp) (hf : m.failed = true)
    (h : ∀ b i dest, op = .block (.read b i dest) → b + 1 ≠ m.nBlocks) : (manStep w m op).1.failed = true := by
  match op with
  | .block (.write b i d) =>
    simp only [manStep]
    cases m.columns[i]? with
    | none => exact hf
    | some c =>
      simp only [seen, dataIn, writeCompressedData]
      cases w <;> simp [hf]
  | .block (.read b i d) =>
    have hb := h b i d rfl
    simp only [manStep]
    cases m.columns[i]? with
    | none => exact hf
    | some c =>
      dsimp only
      split
      · simp [readCompressedData, hf, hb]
      · exact hf
  | .block .header => exact headerIn_failed w m hf
  | .addRow n => exact hf
  | .removeRow row =>
    exact (removal_failed ((m.nRow + (2 ^ 64 - 1)) % 2 ^ 64) row m (StMan.removeRow row m) (by unfold StMan.removeRow; rfl)).trans hf
  | .prepare => exact (prepare_failed m).trans hf
  | .init rows ants write =>
    simp only [manStep, seen, initIn]
    have h1 := (init_failed rows ants m).trans hf
    revert h1
    rcases initializeRowsPerBlock rows ants false m with ⟨m1, b⟩
    intro h1
    cases write
    · exact h1
    · cases b
      · exact h1
      · exact headerIn_failed w m1 h1
  | .addColumn =>
    simp only [manStep, seen, addColumnIn]
    split
    · exact hf
    · have h1 := (prepare_failed m).trans hf
      revert h1
      rcases StMan.prepare m with ⟨m1, b⟩
      intro h1
      cases b
      · exact h1
      · exact headerIn_failed w m1 h1
  | .removeColumn i =>
    simp only [manStep, seen, removeColumnIn]
    split
    · exact headerIn_failed w _ hf
    · exact hf
  | .reopenRW => exact hf

/-- C119 (negative): reading the last block makes the stream good again. -/
theorem last_read_clears (w : Bool) (m : Man) (b i : Nat) (dest : Mem 8) (hf : m.failed = true) (hi : i < m.columns.length)
    (hb : b + 1 = m.nBlocks) : (manStep w m (.block (.read b i dest))).1.failed = false := by
  have h1 : b < m.nBlocks := by omega
  obtain ⟨c, hc⟩ : ∃ c, m.columns[i]? = some c := ⟨_, List.getElem?_eq_getElem hi⟩
  simp [manStep, hc, h1, readCompressedData, hf, hb]

/-- C119: while the stream is failed, also that of a writable file, an operation that writes raises an exception and leaves
the file as it is. -/
theorem failed_throws (w : Bool) (m : Man) (op : ManOp) (hf : m.failed = true) (h : Writes m op) :
    (manStep w m op).2 = .threw ∧ (manStep w m op).1.file = m.file := by
  cases w with
  | false => exact ⟨readonly_throws m op h, step_file m op⟩
  | true =>
    match op, h with
    | .block (.write b i d), ⟨c, hc, hs⟩ => simp [manStep, hc, seen, dataIn, writeCompressedData, hf]
    | .block .header, _ => simp [manStep, seen, headerIn, writeHeader, hf]
    | .init rows ants true, _ =>
      simp only [manStep, seen, initIn, if_true]
      have h1 := init_failed rows ants m
      have h2 := init_file rows ants m
      revert h1 h2
      rcases initializeRowsPerBlock rows ants false m with ⟨m1, b⟩
      intro h1 h2
      rw [hf] at h1
      cases b
      · exact ⟨rfl, h2⟩
      · simp only [headerIn, writeHeader]
        simp only at h1 h2
        simp [h1, h2]
    | .addColumn, _ =>
      simp only [manStep, seen, addColumnIn]
      split
      · exact ⟨rfl, rfl⟩
      · have h1 := prepare_failed m
        have h2 := prepare_file m
        revert h1 h2
        rcases StMan.prepare m with ⟨m1, b⟩
        intro h1 h2
        rw [hf] at h1
        simp only at h1 h2
        cases b <;> simp [headerIn, writeHeader, h1, h2]
    | .removeColumn i, _ =>
      simp only [manStep, seen, removeColumnIn]
      split
      · simp [headerIn, writeHeader, hf]
      · exact ⟨rfl, rfl⟩

/-! ## Examples -/

/-- The hypotheses of `failed_throws`: a writable file, the header is written after a failed read. -/
example (m : Man) : (manStep true { m with failed := true } (.block .header)).2 = .threw ∧
    (manStep true { m with failed := true } (.block .header)).1.file = m.file :=
  failed_throws true { m with failed := true } (.block .header) rfl trivial

/-- The hypotheses of `failed_stays` and `last_read_clears`. -/
example : ∃ m : Man, m.failed = true ∧ 0 < m.columns.length ∧ 0 + 1 = m.nBlocks :=
  ⟨{ twoWrites.foldl blockStep (newTable 3 3 2 tableMan) with failed := true }, rfl, by decide +kernel, by decide +kernel⟩

/-- The table with one block, opened again. -/
def oneBlock : Man := twoWrites.foldl blockStep (newTable 3 3 2 tableMan)

/-- The first byte of a buffer that was read. -/
def Seen.first : Seen → Option Byte
  | .got d => some (d.get 0)
  | _ => none

/-- Before the failed write the block of the weights is read; after it the buffer keeps its old value 7. -/
example : oneBlock.failed = false ∧ oneBlock.nBlocks = 1 ∧
    (manStep false oneBlock (.block (.read 0 1 ⟨52, fun _ => 7⟩))).2.first = some 2 ∧
    ((manRun false oneBlock
      [.block (.write 0 0 ⟨396, fun _ => 3⟩), .block (.read 0 1 ⟨52, fun _ => 7⟩)]).2.map Seen.first) =
      [none, some 7] := by
  refine ⟨by decide +kernel, by decide +kernel, by decide +kernel, by decide +kernel⟩

example : Writes oneBlock (.block (.write 0 0 ⟨396, fun _ => 3⟩)) ∧
    ∀ op ∈ [ManOp.block (.read 0 1 ⟨52, fun _ => 7⟩), .reopenRW, .addRow 3], Quiet op := by
  refine ⟨?_, by simp [Quiet]⟩
  have h : (oneBlock.columns[0]?.map fun c => c.blockSize != 0) = some true := by decide +kernel
  obtain ⟨c, hc, hs⟩ := Option.map_eq_some_iff.mp h
  exact ⟨c, hc, by simpa using hs⟩

end Dysco.StMan
