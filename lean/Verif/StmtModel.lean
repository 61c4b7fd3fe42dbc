import Verif.ColumnProps

/-!
# The column and its threads, statement by statement

In `ColumnModel` a step runs from taking the mutex of the column to releasing it. Here the mutex `_mutex` is a variable
and every statement that uses a shared variable is a step of its own, so that the threads may be interrupted anywhere,
also while they hold the mutex. `wait` releases the mutex, `notify_all` wakes those that wait, and a thread that was
woken takes the mutex again. An encoder thread reads its item through the reference into the cache when it encodes, and
searches the cache item by item.

What the client does without the mutex of the column is one step as in `ColumnModel`; this concerns its own variables,
the calls of the manager (C91, C127), and starting threads when there are none.
-/

namespace Dysco.Stmt
open Col

/-- Where an encoder thread is in `EncodingThreadFunctor::operator()`, threadeddyscocolumn.cc:299-336. -/
inductive TPC (V : Type) where
  /-- to take the mutex, 305 -/
  | lock
  /-- `while (!parent->_stopThreads)`, 313 -/
  | test
  /-- `isWriteItemAvailable` (340-345), called in 315 or again in 318; the iterator is at the `k`-th item -/
  | scan (again : Bool) (k : Nat)
  /-- 316 without an item -/
  | missing (again : Bool)
  /-- 317: in `wait` -/
  | wait
  /-- 317: woken up, to take the mutex -/
  | woken
  /-- 321 without an item, then 313 -/
  | skip
  /-- 316, 321-324 with an item -/
  | found (again : Bool) (b : Nat)
  /-- 326 -/
  | unlock (b : Nat)
  /-- 327, 272-288: to encode the item -/
  | encode (b : Nat)
  /-- 290-293: to write the encoded block -/
  | write (b : Nat) (rows : Rows V)
  /-- 330 -/
  | relock (b : Nat)
  /-- 331-332 -/
  | erase (b : Nat)
  /-- 333 -/
  | notify
  /-- returned -/
  | done
  /-- used an item that is not in the cache: undefined behaviour -/
  | dangling

/-- The thread has left threadeddyscocolumn.cc:313-335. -/
def TPC.isDone {V : Type} : TPC V → Bool
  | .done => true
  | _ => false

/-- Where the client is. -/
inductive CPC (V : Type) where
  /-- between two calls -/
  | idle
  /-- `storeBlock`, 149 -/
  | storeLock (k : After V)
  /-- 150 -/
  | storeMove (k : After V)
  /-- 153-154, 156; the buffer is now in `item` -/
  | storeTest (k : After V) (item : Rows V)
  /-- 155: in `wait` -/
  | storeWait (k : After V) (item : Rows V)
  /-- 155: woken up, to take the mutex -/
  | storeWoken (k : After V) (item : Rows V)
  /-- 158 -/
  | storeInsert (k : After V) (item : Rows V)
  /-- 159 -/
  | storeNotify (k : After V)
  /-- 160 -/
  | storeUnlock (k : After V)
  /-- 162-165 -/
  | storeReset (k : After V)
  /-- `getValues`, 123 -/
  | getLock (row : Nat)
  /-- 125-126, 128 -/
  | getTest (row : Nat)
  /-- 127: in `wait` -/
  | getWait (row : Nat)
  /-- 127: woken up, to take the mutex -/
  | getWoken (row : Nat)
  /-- 130 -/
  | getUnlock (row : Nat)
  /-- 132-140 -/
  | getAccess (row : Nat)
  /-- `loadBlock`, 79-104 -/
  | load (k : Next V)
  /-- `stopThreads`, 51, called by `shutdown` or (`prep`) by `Prepare` -/
  | stopLock (prep : Bool)
  /-- 53-54 -/
  | stopTest (prep : Bool)
  /-- 60, the test -/
  | stopLoop (prep : Bool)
  /-- 60: in `wait` -/
  | stopWait (prep : Bool)
  /-- 60: woken up, to take the mutex -/
  | stopWoken (prep : Bool)
  /-- 63 -/
  | stopSet (prep : Bool)
  /-- 64 -/
  | stopNotify (prep : Bool)
  /-- 67 -/
  | stopUnlock (prep : Bool)
  /-- 68 -/
  | join (prep : Bool)
  /-- `shutdown` returned -/
  | closed
  /-- `stopThreads` raised an exception, 55-57 -/
  | failed
  /-- `addColumn` passed its test (dyscostman.cc:391); to take the mutex of the manager -/
  | prepStart
  /-- outside the model, as in `ColumnModel` -/
  | unsupported

variable {V K : Type} {n : Nat}

/-- `notify_all` for an encoder thread. threadeddyscocolumn.cc:317. -/
def TPC.wake : TPC V → TPC V
  | .wait => .woken
  | pc => pc

/-- `notify_all` for the client. threadeddyscocolumn.cc:60, 127, 155. -/
def CPC.wake : CPC V → CPC V
  | .storeWait k item => .storeWoken k item
  | .getWait row => .getWoken row
  | .stopWait prep => .stopWoken prep
  | pc => pc

/-- The client after a step that ends in a place of `ColumnModel`. threadeddyscocolumn.cc:38-219. -/
def CPC.at : ClientPC V → CPC V
  | .idle => .idle
  | .store k => .storeLock k
  | .storeWait k => .storeWait k Rows.empty
  | .getLock row => .getLock row
  | .getWait row => .getWait row
  | .load k => .load k
  | .stopLock => .stopLock false
  | .stopWait => .stopWait false
  | .join => .join false
  | .closed => .closed
  | .failed => .failed
  | .prepStart => .prepStart
  | .prepLock => .stopLock true
  | .prepWait => .stopWait true
  | .prepJoin => .join true
  | .unsupported => .unsupported

/-- The state. `_mutex` (threadeddyscocolumn.h:219) and the members of `ColumnModel`. -/
structure SState (V K : Type) (n : Nat) where
  /-- the variables; the places of the client and the threads that it also holds are not used -/
  d : State V K n
  client : CPC V
  threads : Fin n → TPC V
  /-- `_mutex`: nobody, the client (`some none`) or an encoder thread has it -/
  mutex : Option (Option (Fin n))

/-- Taking the mutex, if it is free. threadeddyscocolumn.cc:51, 123, 149, 305, 330. -/
def SState.acquire (F : SState V K n) (who : Option (Fin n)) (F' : SState V K n) : Option (SState V K n) :=
  match F.mutex with
  | none => some { F' with mutex := some who }
  | some _ => none

/-- Not in the code. -/
def SState.setT (F : SState V K n) (i : Fin n) (pc : TPC V) : SState V K n :=
  { F with threads := Function.update F.threads i pc }

/-- The call starts the threads: threadeddyscocolumn.cc:199-201, or the same in another column. -/
def starts (p : Params V K) (d : State V K n) : Op V → Bool
  | .put row _ => d.rowsPerBlock == 0 && d.buffer.len != 0 && p.differs (p.key row) d.last && row != 0 && d.cache.isEmpty
  | .otherInit rows => d.rowsPerBlock == 0 && rows != 0 && d.cache.isEmpty
  | _ => false

/-- One step of the client; `none`: it is blocked or has nothing to do. -/
def SState.clientStep (p : Params V K) (F : SState V K n) (junk : Nat → V) : Option (SState V K n) :=
  match F.client with
  | .idle =>
    match F.d.todo with
    | [] => none
    | op :: rest =>
      let d := State.call p { F.d with todo := rest, client := .idle } op
      some { F with
        d := d
        client := CPC.at d.client
        threads := if starts p F.d op then fun _ => .lock else F.threads }
  | .storeLock k =>
    if F.d.current = noBlock then some { F with client := .unsupported }
    else F.acquire none { F with client := .storeMove k }
  | .storeMove k => some { F with d := { F.d with buffer := Rows.empty }, client := .storeTest k F.d.buffer }
  | .storeTest k item =>
    if p.maxCache ≤ F.d.cache.length ∨ F.d.cache.has F.d.current then
      some { F with client := .storeWait k item, mutex := none }
    else some { F with client := .storeInsert k item }
  | .storeWoken k item => F.acquire none { F with client := .storeTest k item }
  | .storeInsert k item =>
    some { F with
      d := { F.d with
        cache := F.d.cache.insert F.d.current item
        stores := F.d.stores ++ [(F.d.current, item)] }
      client := .storeNotify k }
  | .storeNotify k => some { F with threads := fun i => (F.threads i).wake, client := .storeUnlock k }
  | .storeUnlock k => some { F with client := .storeReset k, mutex := none }
  | .storeReset k =>
    some { F with d := { F.d with changed := false, buffer := Rows.empty }, client := CPC.at k.pc }
  | .getLock row => F.acquire none { F with client := .getTest row }
  | .getTest row =>
    if F.d.cache.has (row / F.d.rowsPerBlock) then some { F with client := .getWait row, mutex := none }
    else some { F with client := .getUnlock row }
  | .getWoken row => F.acquire none { F with client := .getTest row }
  | .getUnlock row => some { F with client := .getAccess row, mutex := none }
  | .getAccess row =>
    let d := F.d.access (.get row)
    some { F with d := d, client := CPC.at d.client }
  | .load k =>
    let d := (State.loadBlock p F.d (k.row / F.d.rowsPerBlock) junk).finish k
    some { F with d := d, client := CPC.at d.client }
  | .stopLock prep => F.acquire none { F with client := .stopTest prep }
  | .stopTest prep =>
    if F.d.started = false then
      if F.d.cache ≠ [] then
        -- the exception also releases the mutex of the manager
        some { F with d := { F.d with locked := if prep then false else F.d.locked }, client := .failed, mutex := none }
      else some { F with client := if prep then .join true else .closed, mutex := none }
    else some { F with client := .stopLoop prep }
  | .stopLoop prep =>
    if F.d.cache ≠ [] then some { F with client := .stopWait prep, mutex := none }
    else some { F with client := .stopSet prep }
  | .stopWoken prep => F.acquire none { F with client := .stopLoop prep }
  | .stopSet prep => some { F with d := { F.d with stop := true }, client := .stopNotify prep }
  | .stopNotify prep => some { F with threads := fun i => (F.threads i).wake, client := .stopUnlock prep }
  | .stopUnlock prep => some { F with client := .join prep, mutex := none }
  | .join false =>
    if ∀ i, (F.threads i).isDone = true then some { F with d := { F.d with started := false }, client := .closed } else none
  | .join true =>
    -- the rest of `Prepare` (227-239) and of `DyscoStMan::prepare` (dyscostman.cc:369-373)
    if ∀ i, (F.threads i).isDone = true then
      let d : State V K n := { F.d with started := false, buffer := Rows.empty, current := noBlock, locked := false }
      some { F with
        d := if F.d.rowsPerBlock ≠ 0 then d.start else d
        client := .idle
        threads := if F.d.rowsPerBlock ≠ 0 then fun _ => .lock else F.threads }
    else none
  | .prepStart => some { F with d := { F.d with locked := true }, client := .stopLock true }
  | .storeWait _ _ | .getWait _ | .stopWait _ | .closed | .failed | .unsupported => none

/-- The rows of the item of block `b` in the cache. threadeddyscocolumn.cc:323. -/
def rowsOf (c : Cache V) (b : Nat) : Option (Rows V) := (c.find? fun x => x.1 == b).map fun x => x.2.rows

/-- One step of encoder thread `i`. threadeddyscocolumn.cc:299-345. -/
def SState.threadStep (F : SState V K n) (i : Fin n) : Option (SState V K n) :=
  match F.threads i with
  | .lock => F.acquire (some i) (F.setT i .test)
  | .test =>
    if F.d.stop then some { F.setT i .done with mutex := none } else some (F.setT i (.scan false 0))
  | .scan again k =>
    match F.d.cache[k]? with
    | none => some (F.setT i (.missing again))
    | some x => some (F.setT i (if x.2.writing then .scan again (k + 1) else .found again x.1))
  | .missing _ =>
    if F.d.stop then some (F.setT i .skip) else some { F.setT i .wait with mutex := none }
  | .woken => F.acquire (some i) (F.setT i (.scan true 0))
  | .skip =>
    if F.d.stop then some { F.setT i .done with mutex := none } else some (F.setT i (.scan false 0))
  | .found _ b => some { F.setT i (.unlock b) with d := { F.d with cache := F.d.cache.take b } }
  | .unlock b => some { F.setT i (.encode b) with mutex := none }
  | .encode b =>
    match rowsOf F.d.cache b with
    | none => some (F.setT i .dangling)
    | some rows => some (F.setT i (.write b rows))
  | .write b rows =>
    if F.d.locked then none else
    some { F.setT i (.relock b) with
      d := { F.d with
        file := fun b' => if b' = b then some rows else F.d.file b'
        nBlocks := if F.d.nBlocks ≤ b then b + 1 else F.d.nBlocks
        writes := F.d.writes ++ [(b, rows)] } }
  | .relock b => F.acquire (some i) (F.setT i (.erase b))
  | .erase b =>
    if F.d.cache.has b = false then some (F.setT i .dangling) else
    some { F.setT i .notify with d := { F.d with cache := F.d.cache.remove b } }
  | .notify =>
    let F' := F.setT i .test
    some { F' with threads := fun j => (F'.threads j).wake, client := F.client.wake }
  | .wait | .done | .dangling => none

/-- A step; the labels are those of `ColumnModel`.
Interleaving of threadeddyscocolumn.cc:38-269 (client) and 299-345 (threads). -/
def sstep (p : Params V K) (F : SState V K p.threads) : Label V p.threads → Option (SState V K p.threads)
  | .client junk => F.clientStep p junk
  | .thread i => F.threadStep i
  | .spuriousThread i => some (F.setT i (F.threads i).wake)
  | .spuriousClient => some { F with client := F.client.wake }
  | .others blocks => if F.d.locked then none else
    some { F with d := { F.d with nBlocks := if F.d.nBlocks ≤ blocks then blocks else F.d.nBlocks } }

/-- A run along a schedule. Schedules; not in the code. -/
def srun (p : Params V K) (F : SState V K p.threads) : List (Label V p.threads) → Option (SState V K p.threads)
  | [] => some F
  | l :: ls => (sstep p F l).bind fun F' => srun p F' ls

/-- A column of a new table (`rows = 0`), or of a reopened table, with the same variables as in `ColumnModel`.
threadeddyscocolumn.cc:20-32, dyscostman.cc:284-305, 374-375. -/
def sinitial (p : Params V K) (k : K) (rows : Nat) (file : Nat → Option (Rows V)) (nBlocks : Nat)
    (todo : List (Op V)) : SState V K p.threads where
  d := initial p k rows file nBlocks todo
  client := .idle
  threads := fun _ => if rows = 0 then .done else .lock
  mutex := none

end Dysco.Stmt
