import Verif.ColumnUpdate

/-!
# A storage manager with several columns

`DyscoStMan` with its columns (dyscostman.cc): one client thread, and for each column its own cache, mutex and
encoder threads. The columns share the rows per block and the number of blocks in the file. Each column has its
own part of every block of the file (C35), so the file is kept per column. Column `i` has values of the type `W i`.

The step of a column is that of `ColumnModel`. Two things of that model were stand-ins for other columns: the
label `others` and the call `otherInit`. Here they are the other columns themselves:
`initializeRowsPerBlock` goes through the columns one by one, and encoder threads that were already started run
meanwhile.

Not modelled here: adding and removing columns while the table is in use; for adding see `Op.addColumn`.
-/

namespace Dysco.Multi
open Col

/-- Calls of the client. -/
inductive MOp {c : Nat} (W : Fin c → Type) where
  | put (i : Fin c) (row : Nat) (v : W i)
  | get (i : Fin c) (row : Nat)
  /-- `makeEmpty` of the destructor, dyscostman.cc:111-118 -/
  | close

/-- Where the client is. -/
inductive MPC {c : Nat} (W : Fin c → Type) where
  /-- between two calls -/
  | idle
  /-- in a call of column `i`, at the place that the column holds -/
  | call (i : Fin c)
  /-- in `initializeRowsPerBlock`, called by a put to column `i`; column `k` is next (dyscostman.cc:273-280) -/
  | init (i : Fin c) (row : Nat) (v : W i) (k : Nat)
  /-- `writeHeader`, without any mutex (dyscostman.cc:281), before the put goes on -/
  | header (i : Fin c) (row : Nat) (v : W i)
  /-- in `makeEmpty`, column `k` is next -/
  | close (k : Nat)
  /-- in `makeEmpty`, in `shutdown` of column `i` -/
  | closing (i : Fin c)
  | closed
  | failed
  | unsupported

variable {V K : Type} {c : Nat} {W : Fin c → Type}

/-- dyscostman.cc:112, 270, 437, threadeddyscocolumn.h:208-227. -/
structure MState (P : (i : Fin c) → Params (W i) K) where
  pc : MPC W
  todo : List (MOp W)
  /-- `_rowsPerBlock` -/
  rowsPerBlock : Nat
  /-- `_nBlocksInFile` -/
  nBlocks : Nat
  /-- the columns; what they hold in place of the shared variables is not used -/
  cols : (i : Fin c) → State (W i) K (P i).threads

variable {P : (i : Fin c) → Params (W i) K}

/-- Column `i` with the shared variables. dyscostman.h:239-296. -/
def MState.view (S : MState P) (i : Fin c) : State (W i) K (P i).threads :=
  { S.cols i with todo := [], locked := false, rowsPerBlock := S.rowsPerBlock, nBlocks := S.nBlocks }

/-- After a step of column `i`. dyscostman.cc:437. -/
def MState.set (S : MState P) (i : Fin c) (s : State (W i) K (P i).threads) : MState P :=
  { S with nBlocks := s.nBlocks, cols := Function.update S.cols i s }

/-- After a step of the client in a call of column `i`. threadeddyscocolumn.cc:106-143, 169-219. -/
def MState.enter (S : MState P) (i : Fin c) (s : State (W i) K (P i).threads) : MState P :=
  { S.set i s with pc := match s.client with
      | .idle => .idle
      | .failed => .failed
      | .unsupported => .unsupported
      | _ => .call i }

/-- `putValues` calls `initializeRowsPerBlock`: threadeddyscocolumn.cc:184-202. -/
def startsBlocks (p : Params V K) {n : Nat} (s : State V K n) (row : Nat) : Bool :=
  s.rowsPerBlock == 0 && s.buffer.len != 0 && p.differs (p.key row) s.last && row != 0

/-- One step of the client; `none`: it is blocked or has nothing to do. -/
def MState.client (S : MState P) (junk : (i : Fin c) → Nat → W i) : Option (MState P) :=
  match S.pc with
  | .idle =>
    match S.todo with
    | [] => none
    | .put i row v :: rest =>
      if startsBlocks (P i) (S.view i) row then
        some { S with todo := rest, rowsPerBlock := row, pc := .init i row v 0 }
      else some (MState.enter { S with todo := rest } i (State.put (P i) (S.view i) row v))
    | .get i row :: rest => some (MState.enter { S with todo := rest } i (State.get (S.view i) row))
    | .close :: rest => some { S with todo := rest, pc := .close 0 }
  | .call i => (clientStep (P i) (S.view i) (junk i)).map (S.enter i)
  | .init i row v k =>
    -- `InitializeAfterNRowsPerBlockIsKnown`, threadeddyscocolumn.cc:249-269; `stopThreads` without threads
    if h : k < c then
      if (S.cols ⟨k, h⟩).cache ≠ [] then some { S with pc := .failed }
      else some { S.set ⟨k, h⟩ (S.view ⟨k, h⟩).start with pc := .init i row v (k + 1) }
    else some { S with pc := .header i row v }
  | .header i row v => some (S.enter i (State.put (P i) (S.view i) row v))
  | .close k =>
    if h : k < c then
      some { S.set ⟨k, h⟩ (State.call (P ⟨k, h⟩) (S.view ⟨k, h⟩) .close) with pc := .closing ⟨k, h⟩ }
    else some { S with pc := .closed }
  | .closing i => (clientStep (P i) (S.view i) (junk i)).map fun s =>
    { S.set i s with pc := match s.client with
      | .closed => .close (i + 1)
      | .failed => .failed
      | .unsupported => .unsupported
      | _ => .closing i }
  | .closed | .failed | .unsupported => none

/-- Who makes the next step. Schedules; not in the code. -/
inductive MLabel {c : Nat} {W : Fin c → Type} (P : (i : Fin c) → Params (W i) K) where
  | client (junk : (i : Fin c) → Nat → W i)
  /-- an encoder thread of column `i` -/
  | thread (i : Fin c) (t : Fin (P i).threads)
  /-- a thread that waits wakes up without notification -/
  | spuriousThread (i : Fin c) (t : Fin (P i).threads)
  /-- the client, waiting in a call of column `i`, wakes up without notification -/
  | spuriousClient (i : Fin c)

/-- Interleaving of threadeddyscocolumn.cc:38-269, dyscostman.cc:111-116, 261-282 (client) and threadeddyscocolumn.cc:299-336 (threads). -/
def mstep (S : MState P) : MLabel P → Option (MState P)
  | .client junk => S.client junk
  | .thread i t => (threadStep (S.view i) t).map (S.set i)
  | .spuriousThread i t => (step (P i) (S.view i) (.spuriousThread t)).map (S.set i)
  | .spuriousClient i => (step (P i) (S.view i) .spuriousClient).map (S.set i)

/-- A run along a schedule. Schedules; not in the code. -/
def mrun (S : MState P) : List (MLabel P) → Option (MState P)
  | [] => some S
  | l :: ls => (mstep S l).bind fun S' => mrun S' ls

/-- A new table (`rows = 0`), or a reopened one with blocks of `rows` rows.
dyscostman.cc:167-176, 284-305, threadeddyscocolumn.cc:20-32. -/
def minitial (P : (i : Fin c) → Params (W i) K) (k : K) (rows : Nat) (file : (i : Fin c) → Nat → Option (Rows (W i))) (nBlocks : Nat)
    (todo : List (MOp W)) : MState P where
  pc := .idle
  todo := todo
  rowsPerBlock := rows
  nBlocks := if rows = 0 then 0 else nBlocks
  cols := fun i => initial (P i) k rows (file i) nBlocks []

/-- States that some schedule reaches; not in the code. -/
def MReachable (S0 S : MState P) : Prop := ∃ ls, mrun S0 ls = some S

end Dysco.Multi
