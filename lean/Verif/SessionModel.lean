import Verif.WorldProps

/-!
# A session on a table that is in a file

The columns, their threads and the file, as in `WorldModel`, but loading a block is tied to its bytes. Whenever an
encoder thread writes a block, the state notes what the written bytes decode to (`hist`); this is a history variable.
`loadBlock` then gives the rows that are noted for the last write of the block, or those the block had when the table was
opened. `load_spec` (in `SessionProps`) shows that these are the rows that `loadBlock` decodes from the bytes in the
file at that moment.

`specification` programs (`Spec`) are without threads, cache and bytes: one block in memory, and an array of blocks.
-/

namespace Dysco.Session
open Col Multi StMan End BytePacker Layout World

variable {κ : Type} {c : Nat} {α : Fin c → Type}

/-- The time block buffer `blk` has the rows `r`. The antennas of a row are part of the buffer only for columns that use
them (`ants`): `DyscoWeightColumn::decode` (dyscoweightcolumn.cc:22-28) leaves the old ones. -/
structure SameRows {β : Type} (ants : Bool) (rows : Nat) (blk : Block β) (r : Rows (DataRow β)) : Prop where
  blkLen : blk.len = rows
  len : r.len = rows
  row : ∀ j, j < rows → ∃ x, r.get j = some x ∧ x.vis.len = (blk.get j).vis.len ∧
    (∀ i, i < x.vis.len → x.vis.get i = (blk.get j).vis.get i) ∧
    (ants = true → x.antenna1 = (blk.get j).antenna1 ∧ x.antenna2 = (blk.get j).antenna2)

/-- Decoding the bytes `d` of block `b` (threadeddyscocolumn.cc:86-99) gives the rows `r`, whatever was in the buffers
before. -/
def Decodes {β : Type} (ants : Bool) (K : Codec β) (col : Column) (rows b : Nat) (d : Mem 8)
    (r : Rows (DataRow β)) : Prop :=
  ∀ (packed : Mem 8) (unpacked : Buf Nat) (old : Block β), packed.len = col.blockSize →
    unpacked.len = col.symCount rows → (∀ k, k < col.blockSize → packed.get k = d.get k) →
    ∃ blk, readBlock (K.dec b) col.bits (col.metaCount rows col.antennaCount) (col.symCount rows) rows
      ⟨0, 0, ⟨0, fun _ => K.zero⟩⟩ packed unpacked old = .ok blk ∧ SameRows ants rows blk r

/-- Block `b` is written from the rows `r`, and what is written decodes to the rows `r'`.
threadeddyscocolumn.cc:272-294, 79-104. -/
def Recoded {β : Type} (ants : Bool) (K : Codec β) (col : Column) (rows b : Nat) (r r' : Rows (DataRow β)) : Prop :=
  ∃ d, Encodes K col rows r d ∧ Decodes ants K col rows b d r'

/-- What decoding gives for block `b` after `k` writes, by the history of the column. threadeddyscocolumn.cc:79-104. -/
def decOf {V : Type} (hist : List (Nat × Rows V)) (b k : Nat) (r : Rows V) : Rows V :=
  if k = 0 then r else ((ofBlock hist b)[k - 1]?).getD r

/-- For every column, what decoding gives for a block after a number of writes. threadeddyscocolumn.cc:79-104. -/
abbrev Decs (W : Fin c → Type) := (i : Fin c) → Nat → Nat → Rows (W i) → Rows (W i)

/-- The parameters of the columns, with the outcomes of encoding. threadeddyscocolumn.cc:79-104. -/
abbrev withDec {W : Fin c → Type} (P : (i : Fin c) → Params (W i) κ) (D : Decs W) : (i : Fin c) → Params (W i) κ :=
  fun i => { P i with dec := D i }

/-- The same columns; `dec` is not part of the state. Not in the code. -/
def with_ {W : Fin c → Type} {P : (i : Fin c) → Params (W i) κ} (D : Decs W) (S : MState P) : MState (withDec P D) :=
  ⟨S.pc, S.todo, S.rowsPerBlock, S.nBlocks, S.cols⟩

/-- The same label. Not in the code. -/
def label {W : Fin c → Type} {P : (i : Fin c) → Params (W i) κ} (D : Decs W) : MLabel P → MLabel (withDec P D)
  | .client junk => .client junk
  | .thread i t => .thread i t
  | .spuriousThread i t => .spuriousThread i t
  | .spuriousClient i => .spuriousClient i

/-- The columns (threadeddyscocolumn.h:208-227), the manager (dyscostman.h:386-404), and the history of writes. -/
structure SState (P : (i : Fin c) → Params (DataRow (α i)) κ) where
  cols : MState P
  man : Man
  /-- history: what the blocks written by the encoder threads decode to, in order -/
  hist : (i : Fin c) → List (Nat × Rows (DataRow (α i)))

/-- The outcomes of encoding so far. threadeddyscocolumn.cc:79-104. -/
abbrev SState.decs {P : (i : Fin c) → Params (DataRow (α i)) κ} (s : SState P) : Decs fun i => DataRow (α i) :=
  fun i => decOf (s.hist i)

variable {P : (i : Fin c) → Params (DataRow (α i)) κ}

/-- What a step does to the manager, its file and the history. dyscostman.cc:178-211, 413-445. -/
def SEffect (ants : Fin c → Bool) (K : Codecs α) (S : MState P) (l : MLabel P) (m m' : Man)
    (h h' : (i : Fin c) → List (Nat × Rows (DataRow (α i)))) : Prop :=
  match l with
  | .thread i t =>
    match (S.cols i).threads t with
    | .encode b r => ∃ col d r', m.columns[i.val]? = some col ∧
      Encodes (K i m.rowsPerBlock col) col m.rowsPerBlock r d ∧
      Decodes (ants i) (K i m.rowsPerBlock col) col m.rowsPerBlock b d r' ∧
      m' = blockStep m (.write b i d) ∧ h' = Function.update h i (h i ++ [(b, r')])
    | _ => m' = m ∧ h' = h
  | .client _ =>
    match S.pc with
    | .call i =>
      match (S.cols i).client with
      | .load k => (∃ dest, m' = blockStep m (.read (k.row / S.rowsPerBlock) i dest)) ∧ h' = h
      | _ => m' = m ∧ h' = h
    | _ => m' = m ∧ h' = h
  | _ => m' = m ∧ h' = h

/-- One step. Interleaving of threadeddyscocolumn.cc:38-336. -/
def SStep (ants : Fin c → Bool) (K : Codecs α) (s : SState P) (l : MLabel P) (s' : SState P) : Prop :=
  mstep (with_ s.decs s.cols) (label s.decs l) = some (with_ s.decs s'.cols) ∧
    SEffect ants K s.cols l s.man s'.man s.hist s'.hist

/-- States that some schedule reaches; not in the code. -/
inductive SReach (ants : Fin c → Bool) (K : Codecs α) (s0 : SState P) : SState P → Prop
  | start : SReach ants K s0 s0
  | step {s s' : SState P} {l : MLabel P} : SReach ants K s0 s → SStep ants K s l s' → SReach ants K s0 s'

/-- The blocks of the columns when the table is opened. What threadeddyscocolumn.cc:79-104 gives for the file. -/
abbrev Blocks (α : Fin c → Type) := (i : Fin c) → Nat → Rows (DataRow (α i))

/-- A table with `N` blocks of `rows` rows in the file of `man`, whose columns decode to `blocks`.
dyscostman.cc:284-305 has opened it. -/
structure OnDisk (ants : Fin c → Bool) (K : Codecs α) (rows N : Nat) (man : Man) (store : Store) (blocks : Blocks α) :
    Prop where
  holds : StMan.Holds man store
  rowsPerBlock : man.rowsPerBlock = rows
  columns : man.columns.length = c
  count : man.nBlocks = N
  data : ∀ (i : Fin c) col b, man.columns[i.val]? = some col → b < N →
    ∃ d, store b i = some d ∧ Decodes (ants i) (K i rows col) col rows b d (blocks i b)

/-- The state after opening such a table. dyscostman.cc:284-305, 374-375. -/
def sinitial (P : (i : Fin c) → Params (DataRow (α i)) κ) (k : κ) (rows N : Nat) (man : Man) (blocks : Blocks α)
    (prog : List (MOp fun i => DataRow (α i))) : SState P :=
  ⟨minitial P k rows (fun i b => if b < N then some (blocks i b) else none) N prog, man, fun _ => []⟩

/-! ## Programs without threads -/

/-- One block in memory and the blocks of the table. Specification; not in the code. -/
structure Spec (V : Type) where
  blocks : Nat → Rows V
  cur : Nat
  buf : Rows V
  changed : Bool
  outs : List (Nat × Result V)

/-- Write the block in memory back, if it was changed; `E b r r'`: block `b` with rows `r` is stored as `r'`.
Specification; not in the code. -/
inductive Spec.Flush {V : Type} (E : Nat → Rows V → Rows V → Prop) (q : Spec V) : Spec V → Prop
  | clean : q.changed = false → Flush E q q
  | write (r' : Rows V) : q.changed = true → E q.cur q.buf r' →
    Flush E q { q with blocks := Function.update q.blocks q.cur r', changed := false }

/-- Bring block `b` into memory. Specification; not in the code. -/
inductive Spec.Visit {V : Type} (E : Nat → Rows V → Rows V → Prop) (b : Nat) (q : Spec V) : Spec V → Prop
  | same : b = q.cur → Visit E b q q
  | other (q1 : Spec V) : b ≠ q.cur → Flush E q q1 → Visit E b q { q1 with cur := b, buf := q1.blocks b }

/-- One call, with `m` rows per block. Specification; not in the code. -/
inductive Spec.Call {V : Type} (E : Nat → Rows V → Rows V → Prop) (m : Nat) (q : Spec V) : Op V → Spec V → Prop
  | put (row : Nat) (v : V) (q1 : Spec V) : Visit E (row / m) q q1 →
    Call E m q (.put row v) { q1 with buf := q1.buf.set (row % m) v, changed := true }
  | get (row : Nat) (q1 : Spec V) : Visit E (row / m) q q1 →
    Call E m q (.get row) { q1 with outs := q1.outs ++ [(row, q1.buf.getData (row % m))] }
  | close (q1 : Spec V) : Flush E q q1 → Call E m q .close q1

/-- A program. Specification; not in the code. -/
inductive Spec.Runs {V : Type} (E : Nat → Rows V → Rows V → Prop) (m : Nat) : Spec V → List (Op V) → Spec V → Prop
  | nil (q : Spec V) : Runs E m q [] q
  | cons {q q1 q2 : Spec V} {op : Op V} {rest : List (Op V)} : Call E m q op q1 → Runs E m q1 rest q2 →
    Runs E m q (op :: rest) q2

/-- A table that was just opened. Specification; not in the code. -/
def Spec.opened {V : Type} (blocks : Nat → Rows V) : Spec V := ⟨blocks, noBlock, Rows.empty, false, []⟩

end Dysco.Session
