import Mathlib.Data.List.Sort
import Mathlib.Logic.Function.Basic

/-!
# The write cache and the encoder threads

`ThreadedDyscoColumn`: one client thread that puts and gets rows and closes the column, and `n` encoder
threads. The mutex `_mutex` of the column protects the cache, the flag `_stopThreads` and the condition
variable. Every access to these happens between taking and releasing the mutex, so one step of the model runs
from taking the mutex to releasing it (or to waiting on the condition variable, which releases it). Steps
of different threads interleave in any order: a *schedule* is a list of labels.

Not modelled: exceptions in encoder threads (they end the program; see `ColumnRefused`), `_antennaCount` and the values of
antenna columns (part of the row payload), and a second column as such. Other columns appear as the label
`others`, which raises the number of blocks in the file.

Encoding and decoding are abstract here: the file holds for each block the rows that were encoded, and `dec`
is what decoding gives for them, which may be different each time the block is written. `LayoutProps` and `StorageProps` are about the bytes.
-/

namespace Dysco.Col

/-- `TimeBlockBuffer`, timeblockbuffer.h:9-80. A row that was never set has no visibilities. -/
structure Rows (V : Type) where
  len : Nat
  get : Nat → Option V

/-- A new buffer, timeblockbuffer.h:14. -/
def Rows.empty {V : Type} : Rows V := ⟨0, fun _ => none⟩

/-- `SetData`, timeblockbuffer.h:30-39. -/
def Rows.set {V : Type} (r : Rows V) (i : Nat) (v : V) : Rows V :=
  ⟨if r.len ≤ i then i + 1 else r.len, fun j => if j = i then some v else if j < r.len then r.get j else none⟩

/-- What a get returned. threadeddyscocolumn.cc:106-143. -/
inductive Result (V : Type) where
  /-- `*dataArr = DataType()` -/
  | zero
  /-- the values of the row; `none`: the row has no visibilities, the array is left as it is -/
  | row (v : Option V)
  /-- `_data[blockRow]` outside the vector: undefined behaviour -/
  | outside

/-- `GetData`, timeblockbuffer.h:41-45. -/
def Rows.getData {V : Type} (r : Rows V) (i : Nat) : Result V :=
  if i < r.len then .row (r.get i) else .outside

/-- `CacheItem`, threadeddyscocolumn.h:162-168. -/
structure Item (V : Type) where
  rows : Rows V
  writing : Bool

/-- `cache_t`, threadeddyscocolumn.h:191, in the order of its keys. -/
abbrev Cache (V : Type) := List (Nat × Item V)

/-- `_cache.find(b) != _cache.end()`. threadeddyscocolumn.cc:125-128, 153-156. -/
def Cache.has {V : Type} (c : Cache V) (b : Nat) : Bool := c.any fun x => x.1 == b

/-- `_cache.insert`. threadeddyscocolumn.cc:158. -/
def Cache.insert {V : Type} (c : Cache V) (b : Nat) (r : Rows V) : Cache V :=
  c.orderedInsert (fun x y => x.1 ≤ y.1) (b, ⟨r, false⟩)

/-- `isWriteItemAvailable`, threadeddyscocolumn.cc:340-345. -/
def Cache.available {V : Type} (c : Cache V) : Option (Nat × Item V) := c.find? fun x => !x.2.writing

/-- `item.isBeingWritten = true`, threadeddyscocolumn.cc:323. -/
def Cache.take {V : Type} (c : Cache V) (b : Nat) : Cache V :=
  c.map fun x => if x.1 = b then (x.1, ⟨x.2.rows, true⟩) else x

/-- `cache.erase(i)`, threadeddyscocolumn.cc:331. -/
def Cache.remove {V : Type} (c : Cache V) (b : Nat) : Cache V := c.filter fun x => x.1 != b

/-- Where an encoder thread is in `EncodingThreadFunctor::operator()`, threadeddyscocolumn.cc:299-336. -/
inductive ThreadPC (V : Type) where
  /-- before the test of the outer loop (314), to take or holding the mutex -/
  | head
  /-- waiting on the condition variable (318) -/
  | wait
  /-- woken up, to take the mutex (318) -/
  | woken
  /-- encoding a block without the mutex (326) -/
  | encode (b : Nat) (rows : Rows V)
  /-- the block was written; to take the mutex (329) -/
  | written (b : Nat)
  /-- returned -/
  | done

/-- The thread has left threadeddyscocolumn.cc:313-335. -/
def ThreadPC.isDone {V : Type} : ThreadPC V → Bool
  | .done => true
  | _ => false

/-- What the client does with the block after `storeBlock` and `loadBlock`. threadeddyscocolumn.cc:132-139, 207-213. -/
inductive Next (V : Type) where
  | put (row : Nat) (v : V)
  | get (row : Nat)

/-- What follows `storeBlock`. threadeddyscocolumn.cc:39-41, 133, 208, 225, 250. -/
inductive After (V : Type) where
  | load (k : Next V)
  | stop

/-- Where the client is. -/
inductive ClientPC (V : Type) where
  /-- between two calls -/
  | idle
  /-- `storeBlock` (146-167): to take the mutex -/
  | store (k : After V)
  /-- waiting in `storeBlock` (155) -/
  | storeWait (k : After V)
  /-- `getValues`: to take the mutex (123 or 127) -/
  | getLock (row : Nat)
  /-- waiting in `getValues` (127) -/
  | getWait (row : Nat)
  /-- `loadBlock` (79-104) -/
  | load (k : Next V)
  /-- `stopThreads` (50-70) from `shutdown`: to take the mutex -/
  | stopLock
  | stopWait
  /-- in `join_all` (68) -/
  | join
  /-- `shutdown` returned -/
  | closed
  /-- `stopThreads` raised an exception (54-57) -/
  | failed
  /-- `addColumn` passed its test (dyscostman.cc:391); to take the mutex of the manager -/
  | prepStart
  /-- `stopThreads` from `Prepare` (226), with the mutex of the manager held (dyscostman.cc:347): to take the
  mutex of the column -/
  | prepLock
  | prepWait
  | prepJoin
  /-- Outside the model: `initializeRowsPerBlock` with zero rows (201), or a block stored for
  `_currentBlock == SIZE_MAX`. -/
  | unsupported

/-- Calls of the client. -/
inductive Op (V : Type) where
  /-- `putValues`; the payload are the values with the antennas of the row -/
  | put (row : Nat) (v : V)
  /-- `getValues` -/
  | get (row : Nat)
  /-- `shutdown`, as the last call -/
  | close
  /-- `DyscoStMan::addColumn`, for its effect on this column -/
  | addColumn
  /-- a put to another column fixes the rows per block (201, dyscostman.cc:259-282) -/
  | otherInit (rows : Nat)

/-- What is fixed during a run. -/
structure Params (V K : Type) where
  /-- `defaultThreadCount()`: number of encoder threads -/
  threads : Nat
  /-- `maxCacheSize()` -/
  maxCache : Nat
  /-- time, field and data description of the rows of the table -/
  key : Nat → K
  /-- the test of threadeddyscocolumn.cc:199-200 -/
  differs : K → K → Bool
  /-- What decoding gives for a block that was encoded from these rows: `dec b k` for block `b` after this column has
  written it `k` times (`k = 0`: the block as it was when the column was opened). Encoding draws random numbers, so
  that encoding the same rows again may give something else; `dec` stands for any outcome of these. -/
  dec : Nat → Nat → Rows V → Rows V

/-- `maxCacheSize`, threadeddyscocolumn.h:203-205, for the thread count of the base class (243-246). -/
def maxCacheSize (baseThreads : Nat) : Nat := baseThreads * 12 / 10 + 1

/-- `std::numeric_limits<size_t>::max()`, the initial `_currentBlock` (29, 239). -/
def noBlock : Nat := 2 ^ 64 - 1

/-- The members, threadeddyscocolumn.h:208-227, and what is in the file. -/
structure State (V K : Type) (n : Nat) where
  client : ClientPC V
  todo : List (Op V)
  /-- `_threadGroup` is not empty -/
  started : Bool
  threads : Fin n → ThreadPC V
  cache : Cache V
  /-- `_stopThreads` -/
  stop : Bool
  /-- the mutex of the manager is held by the client -/
  locked : Bool
  /-- `_rowsPerBlock`; zero: `areOffsetsInitialized()` is false -/
  rowsPerBlock : Nat
  /-- `_timeBlockBuffer` -/
  buffer : Rows V
  /-- `_currentBlock` -/
  current : Nat
  /-- `_isCurrentBlockChanged` -/
  changed : Bool
  /-- `_lastWrittenTime`, `_lastWrittenField`, `_lastWrittenDataDescId` -/
  last : K
  /-- the blocks of this column in the file -/
  file : Nat → Option (Rows V)
  /-- `_nBlocksInFile` -/
  nBlocks : Nat
  /-- history: blocks handed to the cache, in order -/
  stores : List (Nat × Rows V)
  /-- history: blocks written by `encodeAndWrite`, in order -/
  writes : List (Nat × Rows V)
  /-- history: results of the gets, in order -/
  outs : List (Nat × Result V)

variable {V K : Type} {n : Nat}

/-- `notify_all` for an encoder thread. threadeddyscocolumn.cc:317. -/
def ThreadPC.wake : ThreadPC V → ThreadPC V
  | .wait => .woken
  | pc => pc

/-- `notify_all` for the client. threadeddyscocolumn.cc:60, 127, 155. -/
def ClientPC.wake : ClientPC V → ClientPC V
  | .storeWait k => .store k
  | .getWait row => .getLock row
  | .stopWait => .stopLock
  | .prepWait => .prepLock
  | pc => pc

/-- `_cacheChangedCondition.notify_all()` by an encoder thread. threadeddyscocolumn.cc:333. -/
def State.notify (s : State V K n) : State V K n :=
  { s with threads := fun i => (s.threads i).wake, client := s.client.wake }

/-- `InitializeAfterNRowsPerBlockIsKnown` (249-269) after its call of `stopThreads`: start the threads. -/
def State.start (s : State V K n) : State V K n :=
  { s with stop := false, threads := fun _ => .head, started := decide (0 < n) }

/-- The end of `putValues` (213-217) and `getValues` (138-140), with the block in the buffer. -/
def State.finish (s : State V K n) : Next V → State V K n
  | .put row v =>
    { s with client := .idle, buffer := s.buffer.set (row % s.rowsPerBlock) v, changed := true }
  | .get row =>
    { s with client := .idle, outs := s.outs ++ [(row, s.buffer.getData (row % s.rowsPerBlock))] }

/-- `rowNr`, threadeddyscocolumn.cc:108, 171. -/
def Next.row : Next V → Nat
  | .put row _ => row
  | .get row => row

/-- `if (blockIndex != _currentBlock) { if (_isCurrentBlockChanged) storeBlock(); loadBlock(blockIndex); }`,
207-212 and 132-135. -/
def State.access (s : State V K n) (k : Next V) : State V K n :=
  if k.row / s.rowsPerBlock ≠ s.current then
    if s.changed then { s with client := .store (.load k) } else { s with client := .load k }
  else s.finish k

/-- `putValues`, threadeddyscocolumn.cc:170-219. -/
def State.put (p : Params V K) (s : State V K n) (row : Nat) (v : V) : State V K n :=
  if s.rowsPerBlock ≠ 0 then s.access (.put row v)
  else if s.buffer.len = 0 then
    -- first row
    { s with current := 0, last := p.key row, buffer := s.buffer.set row v, changed := true }
  else if p.differs (p.key row) s.last then
    if row = 0 then { s with client := .unsupported }
    else if s.cache ≠ [] then { s with client := .failed }
    else ({ s with rowsPerBlock := row }.start).access (.put row v)
  else { s with buffer := s.buffer.set row v, changed := true }

/-- `getValues`, threadeddyscocolumn.cc:107-121. -/
def State.get (s : State V K n) (row : Nat) : State V K n :=
  if s.rowsPerBlock = 0 then { s with outs := s.outs ++ [(row, .zero)] }
  else if s.nBlocks ≤ row / s.rowsPerBlock then { s with outs := s.outs ++ [(row, .zero)] }
  else { s with client := .getLock row }

/-- What the client does after `storeBlock`. threadeddyscocolumn.cc:39-41, 133-134, 208-211. -/
def After.pc : After V → ClientPC V
  | .load k => .load k
  | .stop => .stopLock

/-- `storeBlock`, threadeddyscocolumn.cc:146-167. -/
def State.storeBlock (p : Params V K) (s : State V K n) (k : After V) : State V K n :=
  if s.current = noBlock then { s with client := .unsupported }
  else if p.maxCache ≤ s.cache.length ∨ s.cache.has s.current then { s with client := .storeWait k }
  else
    { s with
      cache := s.cache.insert s.current s.buffer
      stores := s.stores ++ [(s.current, s.buffer)]
      changed := false
      buffer := Rows.empty
      threads := fun i => (s.threads i).wake
      client := k.pc }

/-- How often this column has written block `b` since it was opened. Counts dyscostman.cc:432-445; not in the code. -/
def State.timesWritten (s : State V K n) (b : Nat) : Nat := s.writes.countP fun x => x.1 == b

/-- `loadBlock`, threadeddyscocolumn.cc:79-104. If the block is counted but was not written by this
column, the buffer is filled from the bytes that happen to be there, `junk`. If the block is not in the file
the buffer is kept. -/
def State.loadBlock (p : Params V K) (s : State V K n) (b : Nat) (junk : Nat → V) : State V K n :=
  { s with
    current := b
    changed := false
    buffer := if b < s.nBlocks then
        match s.file b with
        | some r => p.dec b (s.timesWritten b) r
        | none => ⟨s.rowsPerBlock, fun i => if i < s.rowsPerBlock then some (junk i) else none⟩
      else s.buffer }

/-- The first step of a call. -/
def State.call (p : Params V K) (s : State V K n) : Op V → State V K n
  | .put row v => s.put p row v
  | .get row => s.get row
  | .close =>
    -- `shutdown`, 38-42
    if s.changed then { s with client := .store .stop } else { s with client := .stopLock }
  | .addColumn =>
    -- dyscostman.cc:390-397
    if s.nBlocks ≠ 0 then s else { s with client := .prepStart }
  | .otherInit rows =>
    if s.rowsPerBlock ≠ 0 then s
    else if rows = 0 then { s with client := .unsupported }
    else if s.cache ≠ [] then { s with client := .failed }
    else { s with rowsPerBlock := rows }.start

/-- One step of the client; `none`: it is blocked or has nothing to do. -/
def clientStep (p : Params V K) (s : State V K n) (junk : Nat → V) : Option (State V K n) :=
  match s.client with
  | .idle =>
    match s.todo with
    | [] => none
    | op :: rest => some (State.call p { s with todo := rest } op)
  | .store k => some (State.storeBlock p s k)
  | .getLock row =>
    -- 122-131
    if s.cache.has (row / s.rowsPerBlock) then some { s with client := .getWait row }
    else some (s.access (.get row))
  | .load k => some ((State.loadBlock p s (k.row / s.rowsPerBlock) junk).finish k)
  | .stopLock =>
    -- `stopThreads`, 50-70
    if s.started = false then
      if s.cache ≠ [] then some { s with client := .failed } else some { s with client := .closed }
    else if s.cache ≠ [] then some { s with client := .stopWait }
    else some { s with stop := true, threads := fun i => (s.threads i).wake, client := .join }
  | .join =>
    if ∀ i, (s.threads i).isDone = true then some { s with started := false, client := .closed } else none
  | .prepStart => some { s with locked := true, client := .prepLock }
  | .prepLock =>
    if s.started = false then
      if s.cache ≠ [] then some { s with locked := false, client := .failed }
      else some { s with client := .prepJoin }
    else if s.cache ≠ [] then some { s with client := .prepWait }
    else some { s with stop := true, threads := fun i => (s.threads i).wake, client := .prepJoin }
  | .prepJoin =>
    -- the rest of `Prepare` (227-239) and of `DyscoStMan::prepare` (dyscostman.cc:369-373)
    if ∀ i, (s.threads i).isDone = true then
      let s1 : State V K n :=
        { s with started := false, buffer := Rows.empty, current := noBlock, locked := false, client := .idle }
      some (if s.rowsPerBlock ≠ 0 then s1.start else s1)
    else none
  | .storeWait _ | .getWait _ | .stopWait | .prepWait | .closed | .failed | .unsupported => none

/-- Looking for an item, with the mutex held (315-325): take one, or wait, or, if the threads must stop,
return. -/
def State.seek (s : State V K n) (i : Fin n) : State V K n :=
  match s.cache.available with
  | some (b, item) =>
    { s with cache := s.cache.take b, threads := Function.update s.threads i (.encode b item.rows) }
  | none =>
    { s with threads := Function.update s.threads i (if s.stop then .done else .wait) }

/-- One step of encoder thread `i`. -/
def threadStep (s : State V K n) (i : Fin n) : Option (State V K n) :=
  match s.threads i with
  | .head =>
    if s.stop then some { s with threads := Function.update s.threads i .done } else some (s.seek i)
  | .woken => some (s.seek i)
  | .encode b rows =>
    -- `encodeAndWrite` (272-294); `writeCompressedData` needs the mutex of the manager
    if s.locked then none else
    some { s with
      threads := Function.update s.threads i (.written b)
      file := fun b' => if b' = b then some rows else s.file b'
      nBlocks := if s.nBlocks ≤ b then b + 1 else s.nBlocks
      writes := s.writes ++ [(b, rows)] }
  | .written b =>
    some { s with
      cache := s.cache.remove b
      threads := Function.update s.threads i .head }.notify
  | .wait | .done => none

/-- Who makes the next step. Schedules; not in the code. -/
inductive Label (V : Type) (n : Nat) where
  /-- the client; `junk` is used when it reads a block that this column did not write -/
  | client (junk : Nat → V)
  /-- an encoder thread -/
  | thread (i : Fin n)
  /-- a waiting encoder thread wakes up without notification -/
  | spuriousThread (i : Fin n)
  /-- the waiting client wakes up without notification -/
  | spuriousClient
  /-- other columns raise the number of blocks in the file -/
  | others (blocks : Nat)

/-- Interleaving of threadeddyscocolumn.cc:38-269 (client) and 299-336 (threads). -/
def step (p : Params V K) (s : State V K p.threads) : Label V p.threads → Option (State V K p.threads)
  | .client junk => clientStep p s junk
  | .thread i => threadStep s i
  | .spuriousThread i => some { s with threads := Function.update s.threads i (s.threads i).wake }
  | .spuriousClient => some { s with client := s.client.wake }
  | .others blocks => if s.locked then none else
    some { s with nBlocks := if s.nBlocks ≤ blocks then blocks else s.nBlocks }

/-- A run along a schedule. Schedules; not in the code. -/
def run (p : Params V K) (s : State V K p.threads) : List (Label V p.threads) → Option (State V K p.threads)
  | [] => some s
  | l :: ls => (step p s l).bind fun s' => run p s' ls

/-- A column of a new table (`rows = 0`), or of a reopened table with blocks of `rows` rows, some of
which are in the file. threadeddyscocolumn.cc:20-32, 222-240, dyscostman.cc:284-305, 374-375. -/
def initial (p : Params V K) (k : K) (rows : Nat) (file : Nat → Option (Rows V)) (nBlocks : Nat)
    (todo : List (Op V)) : State V K p.threads where
  client := .idle
  todo := todo
  started := if rows = 0 then false else decide (0 < p.threads)
  threads := fun _ => if rows = 0 then .done else .head
  cache := []
  stop := false
  locked := false
  rowsPerBlock := rows
  buffer := Rows.empty
  current := noBlock
  changed := false
  last := k
  file := if rows = 0 then fun _ => none else file
  nBlocks := if rows = 0 then 0 else nBlocks
  stores := []
  writes := []
  outs := []

/-- States that some schedule reaches. Not in the code. -/
def Reachable (p : Params V K) (s0 s : State V K p.threads) : Prop := ∃ ls, run p s0 ls = some s

end Dysco.Col
