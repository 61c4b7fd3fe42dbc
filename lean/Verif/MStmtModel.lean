import Verif.StmtModel
import Verif.MultiModel

/-!
# A storage manager with several columns, statement by statement

`MultiModel` with the columns of `StmtModel`: every column has its own mutex, and the client and the encoder threads of
all columns may be interrupted between any two statements, also while they hold a mutex of a column.

What the client does without the mutex of a column is one step, as in `StmtModel`. The calls of the manager are one step
each (C91, C127).
-/

namespace Dysco.MStmt
open Col Multi Stmt

variable {V K : Type} {n c : Nat} {W : Fin c → Type}

/-- A call that starts no threads, up to where it uses the mutex of the column: `StmtModel` for a client that is idle.
threadeddyscocolumn.cc:109-123, 175-208, 39-51. -/
def enterCall (p : Params V K) (F : SState V K n) (op : Op V) : SState V K n :=
  let d := State.call p { F.d with client := .idle } op
  { F with d := d, client := CPC.at d.client }

/-- The threads of a column are started: `InitializeAfterNRowsPerBlockIsKnown`, threadeddyscocolumn.cc:249-269. -/
def startThreads (F : SState V K n) : SState V K n := { F with d := F.d.start, threads := fun _ => .lock }

/-- The state. dyscostman.cc:112, 270, 437, threadeddyscocolumn.h:208-227. -/
structure MSState (P : (i : Fin c) → Params (W i) K) where
  pc : MPC W
  todo : List (MOp W)
  /-- `_rowsPerBlock` -/
  rowsPerBlock : Nat
  /-- `_nBlocksInFile` -/
  nBlocks : Nat
  /-- the columns; what they hold in place of the shared variables is not used -/
  cols : (i : Fin c) → SState (W i) K (P i).threads

variable {P : (i : Fin c) → Params (W i) K}

/-- Column `i` with the shared variables. dyscostman.h:239-296. -/
def MSState.view (F : MSState P) (i : Fin c) : SState (W i) K (P i).threads :=
  { F.cols i with
    d := { (F.cols i).d with todo := [], locked := false, rowsPerBlock := F.rowsPerBlock, nBlocks := F.nBlocks } }

/-- After a statement of column `i`. dyscostman.cc:437. -/
def MSState.set (F : MSState P) (i : Fin c) (f : SState (W i) K (P i).threads) : MSState P :=
  { F with nBlocks := f.d.nBlocks, cols := Function.update F.cols i f }

/-- Where the client is after a statement in a put or get of column `i`. threadeddyscocolumn.cc:106-143, 169-219. -/
def callPC (i : Fin c) : CPC V → MPC W
  | .idle => .idle
  | .failed => .failed
  | .unsupported => .unsupported
  | _ => .call i

/-- Where the client is after a statement in `shutdown` of column `i`. dyscostman.cc:112-114. -/
def closePC (i : Fin c) : CPC V → MPC W
  | .closed => .close (i + 1)
  | .failed => .failed
  | .unsupported => .unsupported
  | _ => .closing i

/-- After a statement of the client in a put or get of column `i`. threadeddyscocolumn.cc:106-143, 169-219. -/
def MSState.enter (F : MSState P) (i : Fin c) (f : SState (W i) K (P i).threads) : MSState P :=
  { F.set i f with pc := callPC i f.client }

/-- One statement of the client; `none`: it is blocked or has nothing to do. The places are those of `MultiModel`:
putValues, getValues (threadeddyscocolumn.cc:112-219), initializeRowsPerBlock (dyscostman.cc:273-281) and makeEmpty
(dyscostman.cc:111-118). -/
def MSState.client (F : MSState P) (junk : (i : Fin c) → Nat → W i) : Option (MSState P) :=
  match F.pc with
  | .idle =>
    match F.todo with
    | [] => none
    | .put i row v :: rest =>
      if startsBlocks (P i) (F.view i).d row then
        some { F with todo := rest, rowsPerBlock := row, pc := .init i row v 0 }
      else some (MSState.enter { F with todo := rest } i (enterCall (P i) (F.view i) (.put row v)))
    | .get i row :: rest => some (MSState.enter { F with todo := rest } i (enterCall (P i) (F.view i) (.get row)))
    | .close :: rest => some { F with todo := rest, pc := .close 0 }
  | .call i => ((F.view i).clientStep (P i) (junk i)).map (F.enter i)
  | .init i row v k =>
    if h : k < c then
      if (F.cols ⟨k, h⟩).d.cache ≠ [] then some { F with pc := .failed }
      else some { F.set ⟨k, h⟩ (startThreads (F.view ⟨k, h⟩)) with pc := .init i row v (k + 1) }
    else some { F with pc := .header i row v }
  | .header i row v => some (F.enter i (enterCall (P i) (F.view i) (.put row v)))
  | .close k =>
    if h : k < c then
      some { F.set ⟨k, h⟩ (enterCall (P ⟨k, h⟩) (F.view ⟨k, h⟩) .close) with pc := .closing ⟨k, h⟩ }
    else some { F with pc := .closed }
  | .closing i => ((F.view i).clientStep (P i) (junk i)).map fun f => { F.set i f with pc := closePC i f.client }
  | .closed | .failed | .unsupported => none

/-- A statement, or a wake-up without notification; the labels are those of `MultiModel`.
Interleaving of threadeddyscocolumn.cc:38-336; the labels are those of `MultiModel`. -/
def msstep (F : MSState P) : MLabel P → Option (MSState P)
  | .client junk => F.client junk
  | .thread i t => ((F.view i).threadStep t).map (F.set i)
  | .spuriousThread i t => (sstep (P i) (F.view i) (.spuriousThread t)).map (F.set i)
  | .spuriousClient i => (sstep (P i) (F.view i) .spuriousClient).map (F.set i)

/-- A run along a schedule. Schedules; not in the code. -/
def msrun (F : MSState P) : List (MLabel P) → Option (MSState P)
  | [] => some F
  | l :: ls => (msstep F l).bind fun F' => msrun F' ls

/-- A new table (`rows = 0`), or a reopened one with blocks of `rows` rows.
dyscostman.cc:167-176, 284-305, threadeddyscocolumn.cc:20-32. -/
def msinitial (P : (i : Fin c) → Params (W i) K) (k : K) (rows : Nat) (file : (i : Fin c) → Nat → Option (Rows (W i)))
    (nBlocks : Nat) (todo : List (MOp W)) : MSState P where
  pc := .idle
  todo := todo
  rowsPerBlock := rows
  nBlocks := if rows = 0 then 0 else nBlocks
  cols := fun i => sinitial (P i) k rows (file i) nBlocks []

end Dysco.MStmt
