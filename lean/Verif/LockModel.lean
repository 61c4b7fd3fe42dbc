import Verif.MStmtModel

/-!
# The whole program, statement by statement

`MStmtModel` with the calls of the storage manager split into statements: the mutex `_mutex` of the manager and the
position of the shared stream are variables, and the client and the encoder threads of all columns may be interrupted
between any two statements, also inside `nBlocksInFile`, `readCompressedData`, `writeCompressedData` and `writeHeader`.
Reading and writing happen at the position of the stream, whoever has set it. `writeHeader` takes no mutex.

The position is given as the part of the file that begins there, which is the header or the part of a block that belongs
to a column; C35 is about where these are. Failures of the stream are left out (C33, C122).
-/

namespace Dysco.Lock
open Col Multi Stmt MStmt

variable {K : Type} {c : Nat} {W : Fin c → Type}

/-- Where an encoder thread is in `writeCompressedData`, dyscostman.cc:432-445. -/
inductive Stage where
  /-- not yet in it, to take the mutex (435) -/
  | out
  /-- 436-438 -/
  | locked
  /-- 439-440: `seekp` -/
  | counted
  /-- 441-445: `write`, and releasing the mutex -/
  | sought
  deriving DecidableEq

/-- Where the client is in a call of the manager. -/
inductive CStage where
  /-- not yet in it; with a mutex to take (dyscostman.h:240), or at `seekp` of `writeHeader` (dyscostman.cc:179) -/
  | out
  /-- in `nBlocksInFile`: to read `_nBlocksInFile` and to release the mutex, dyscostman.h:241 -/
  | count
  /-- `loadBlock` found that the block is in the file; to take the mutex, dyscostman.cc:416 -/
  | found
  /-- dyscostman.cc:417-420: `seekg` -/
  | readLocked
  /-- dyscostman.cc:421-430: `read`, and releasing the mutex -/
  | readSought
  /-- dyscostman.cc:201-207: to write the header -/
  | header
  deriving DecidableEq

/-- The client has the mutex of the manager. dyscostman.cc:416-430, dyscostman.h:240-241. -/
def CStage.holds : CStage → Bool
  | .count | .readLocked | .readSought => true
  | .out | .found | .header => false

/-- The state. `_mutex`, `_fStream` of dyscostman.h:386-404, and threadeddyscocolumn.h:208-227. -/
structure LState (P : (i : Fin c) → Params (W i) K) where
  /-- everything outside the calls of the manager, `_nBlocksInFile`, and what is in the file -/
  F : MSState P
  /-- `_mutex` of the manager: nobody, the client (`some none`) or an encoder thread has it -/
  owner : Option (Option ((i : Fin c) × Fin (P i).threads))
  /-- position of the stream: at the header, or at block `b` of a column -/
  pos : Option (Fin c × Nat)
  client : CStage
  threads : (i : Fin c) → Fin (P i).threads → Stage
  /-- something was written in the place of something else -/
  bad : Bool

variable {P : (i : Fin c) → Params (W i) K}

/-- A call of the manager that the client is to make. -/
inductive Call (W : Fin c → Type) where
  /-- `nBlocksInFile` in `getValues`, threadeddyscocolumn.cc:116 -/
  | count
  /-- `nBlocksInFile` and `readCompressedData` in `loadBlock`, threadeddyscocolumn.cc:79-80 -/
  | load (i : Fin c) (k : Next (W i))
  /-- `writeHeader`, dyscostman.cc:281 -/
  | header

/-- What the client is to call at this place. threadeddyscocolumn.cc:80-81, 116, dyscostman.cc:281. -/
def calls (F : MSState P) : Option (Call W) :=
  match F.pc with
  | .idle => match F.todo with
    | .get _ _ :: _ => if F.rowsPerBlock = 0 then none else some .count
    | _ => none
  | .call i | .closing i => match (F.cols i).client with
    | .load k => some (.load i k)
    | _ => none
  | .header .. => some .header
  | _ => none

/-- The client goes on in column `i`. threadeddyscocolumn.cc:134-142, 211-219. -/
def goOn (F : MSState P) (i : Fin c) (f : SState (W i) K (P i).threads) : MSState P :=
  match F.pc with
  | .closing _ => { F.set i f with pc := closePC i f.client }
  | _ => F.enter i f

/-- `loadBlock` (threadeddyscocolumn.cc:79-104) with what was read: `none`, the block is not in the file; otherwise the part
of the file. Bytes that are not a block of this column give `junk`. -/
def loadWith {V : Type} {n : Nat} (p : Params V K) (s : State V K n) (b : Nat) (junk : Nat → V)
    (slot : Option (Option Nat)) : State V K n :=
  { s with
    current := b
    changed := false
    buffer := match slot with
      | none => s.buffer
      | some slot => match slot.bind fun b' => (s.file b').map fun r => p.dec b' (s.timesWritten b') r with
        | some r => r
        | none => ⟨s.rowsPerBlock, fun i => if i < s.rowsPerBlock then some (junk i) else none⟩ }

/-- The client after `loadBlock` in column `i`. threadeddyscocolumn.cc:102-103, 139, 213. -/
def loaded (F : MSState P) (i : Fin c) (k : Next (W i)) (junk : Nat → W i) (slot : Option (Option Nat)) : MSState P :=
  let d := (loadWith (P i) (F.view i).d (k.row / F.rowsPerBlock) junk slot).finish k
  goOn F i { F.view i with d := d, client := CPC.at d.client }

/-- The block of column `i` at the position. dyscostman.cc:417-421, 439-441. -/
def slotOf (pos : Option (Fin c × Nat)) (i : Fin c) : Option Nat :=
  match pos with
  | some (j, b) => if j = i then some b else none
  | none => none

/-- Taking the mutex of the manager, if it is free. `std::lock_guard`, dyscostman.cc:416, 435, dyscostman.h:240. -/
def LState.acquire (G : LState P) (who : Option ((i : Fin c) × Fin (P i).threads)) (G' : LState P) : Option (LState P) :=
  match G.owner with
  | none => some { G' with owner := some who }
  | some _ => none

/-- One statement of the client; `none`: it is blocked or has nothing to do.
threadeddyscocolumn.cc:79-104, 116, dyscostman.cc:178-211, 413-430, dyscostman.h:239-242. -/
def LState.clientStep (G : LState P) (junk : (i : Fin c) → Nat → W i) : Option (LState P) :=
  match calls G.F with
  | none => (msstep G.F (.client junk)).map fun F => { G with F := F }
  | some .count =>
    match G.client with
    | .count => (msstep G.F (.client junk)).map fun F => { G with F := F, owner := none, client := .out }
    | _ => G.acquire none { G with client := .count }
  | some (.load i k) =>
    match G.client with
    | .count =>
      if k.row / G.F.rowsPerBlock < G.F.nBlocks then some { G with owner := none, client := .found }
      else some { G with F := loaded G.F i k (junk i) none, owner := none, client := .out }
    | .found => G.acquire none { G with client := .readLocked }
    | .readLocked => some { G with pos := some (i, k.row / G.F.rowsPerBlock), client := .readSought }
    | .readSought =>
      some { G with F := loaded G.F i k (junk i) (some (slotOf G.pos i)), owner := none, client := .out }
    | _ => G.acquire none { G with client := .count }
  | some .header =>
    match G.client with
    | .header => (msstep G.F (.client junk)).map fun F => { G with F := F, client := .out, bad := G.bad || G.pos.isSome }
    | _ => some { G with pos := none, client := .header }

/-- Not in the code. -/
def LState.setT (G : LState P) (i : Fin c) (t : Fin (P i).threads) (s : Stage) : LState P :=
  { G with threads := Function.update G.threads i (Function.update (G.threads i) t s) }

/-- `_nBlocksInFile` after line 438 of dyscostman.cc. -/
def raise (nBlocks b : Nat) : Nat := if nBlocks ≤ b then b + 1 else nBlocks

/-- Thread `t` of column `i` has written its block, of which the cache says that it is `b`, as block `b'`.
dyscostman.cc:441. -/
def written (F : MSState P) (i : Fin c) (t : Fin (P i).threads) (b b' : Nat) (rows : Rows (W i)) : MSState P :=
  F.set i { (F.view i).setT t (.relock b) with
    d := { (F.view i).d with
      file := fun b'' => if b'' = b' then some rows else (F.view i).d.file b''
      writes := (F.view i).d.writes ++ [(b', rows)] } }

/-- One statement of encoder thread `t` of column `i`. threadeddyscocolumn.cc:327-328, dyscostman.cc:432-445. -/
def LState.threadStep (G : LState P) (i : Fin c) (t : Fin (P i).threads) : Option (LState P) :=
  match (G.F.cols i).threads t with
  | .write b rows =>
    match G.threads i t with
    | .out => G.acquire (some ⟨i, t⟩) (G.setT i t .locked)
    | .locked => some { G.setT i t .counted with F := { G.F with nBlocks := raise G.F.nBlocks b } }
    | .counted => some { G.setT i t .sought with pos := some (i, b) }
    | .sought =>
      match slotOf G.pos i with
      | some b' => some { G.setT i t .out with F := written G.F i t b b' rows, owner := none }
      | none => some { G.setT i t .out with F := G.F.set i ((G.F.view i).setT t (.relock b)), owner := none, bad := true }
  | _ => (msstep G.F (.thread i t)).map fun F => { G with F := F }

/-- A statement, or a wake-up without notification.
Interleaving; the statements are those of `clientStep`, `threadStep` and threadeddyscocolumn.cc:38-336. -/
def lstep (G : LState P) : MLabel P → Option (LState P)
  | .client junk => G.clientStep junk
  | .thread i t => G.threadStep i t
  | l => (msstep G.F l).map fun F => { G with F := F }

/-- A run along a schedule. Schedules; not in the code. -/
def lrun (G : LState P) : List (MLabel P) → Option (LState P)
  | [] => some G
  | l :: ls => (lstep G l).bind fun G' => lrun G' ls

/-- A new table (`rows = 0`), or a reopened one with blocks of `rows` rows; `pos` is where opening the file left the
stream. dyscostman.cc:167-176, 284-305. -/
def linitial (P : (i : Fin c) → Params (W i) K) (k : K) (rows : Nat) (file : (i : Fin c) → Nat → Option (Rows (W i)))
    (nBlocks : Nat) (todo : List (MOp W)) (pos : Option (Fin c × Nat)) : LState P where
  F := msinitial P k rows file nBlocks todo
  owner := none
  pos := pos
  client := .out
  threads := fun _ _ => .out
  bad := false

end Dysco.Lock
