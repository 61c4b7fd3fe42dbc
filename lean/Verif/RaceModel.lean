import Verif.MultiProps

/-!
# Data races

The model of the threads (`ColumnModel`, `MultiModel`) makes one step from taking a mutex to releasing it and lets the
steps interleave. That is justified if no two threads use the same variable at the same time, one of them writing. Here
every step has the list of variables that it reads and writes and of mutexes that it takes and releases, in the order of
the code, and *happens before* is defined as in the C++ standard (program order, releasing before taking a mutex,
creating and joining threads).

Where the path through a step depends on data that the model does not have, the list has the accesses of all paths. The
memory that is private to a thread (`packedSymbolBuffer`, `unpackedSymbolBuffer`, `threadUserData`,
threadeddyscocolumn.cc:306-312) is left out. `wait` on a condition variable releases the mutex, and takes it again in the
next step of the thread. Between `written` and `head` the thread keeps the mutex, whereas in the model it releases it and
takes it again; as nobody else can take it in between, this adds no order between other events.
-/

namespace Dysco.Race

/-- What a thread does: `T` threads, `M` mutexes, `L` variables. The C++ memory model; not in the code. -/
inductive Act (T M L : Type) where
  | acquire (m : M)
  | release (m : M)
  | create (t : T)
  | join (t : T)
  | read (l : L)
  | write (l : L)
deriving DecidableEq

/-- The C++ memory model; not in the code. -/
structure Ev (T M L : Type) where
  who : T
  act : Act T M L
deriving DecidableEq

variable {T M L : Type}

/-- The direct order of two events, the first of which comes earlier: the same thread; releasing and taking a mutex;
creating a thread and what it does; what a thread does and joining it. The C++ memory model; not in the code. -/
def Edge (a b : Ev T M L) : Prop :=
  a.who = b.who ∨ (∃ m, a.act = .release m ∧ b.act = .acquire m) ∨ a.act = .create b.who ∨ b.act = .join a.who

/-- Event `i` happens before event `j`. The C++ memory model; not in the code. -/
inductive HB (tr : List (Ev T M L)) : Nat → Nat → Prop
  | edge {i j : Nat} {a b : Ev T M L} : i < j → tr[i]? = some a → tr[j]? = some b → Edge a b → HB tr i j
  | trans {i j k : Nat} : HB tr i j → HB tr j k → HB tr i k

/-- The event reads or writes the variable. The C++ memory model; not in the code. -/
def Uses (a : Ev T M L) (l : L) : Prop := a.act = .read l ∨ a.act = .write l

/-- Two threads use the same variable, and one writes. The C++ memory model; not in the code. -/
def Conflict (a b : Ev T M L) : Prop :=
  a.who ≠ b.who ∧ ∃ l, Uses a l ∧ Uses b l ∧ (a.act = .write l ∨ b.act = .write l)

/-- No two conflicting events are unordered. The C++ memory model; not in the code. -/
def RaceFree (tr : List (Ev T M L)) : Prop :=
  ∀ i j a b, i < j → tr[i]? = some a → tr[j]? = some b → Conflict a b → HB tr i j

end Dysco.Race

namespace Dysco.Multi
open Col Race
variable {K : Type} {c : Nat} {W : Fin c → Type} {P : (i : Fin c) → Params (W i) K}

/-- The threads: `none` is the client. threadeddyscocolumn.cc:268. -/
abbrev Thr (P : (i : Fin c) → Params (W i) K) := Option ((i : Fin c) × Fin (P i).threads)

/-- The mutexes: `none` is that of the manager (dyscostman.h:393), `some i` that of column `i`
(threadeddyscocolumn.h:219). -/
abbrev Mut (c : Nat) := Option (Fin c)

/-- The variables. -/
inductive Var (c : Nat) where
  /-- `_rowsPerBlock`, `_antennaCount`, dyscostman.h:388-389 -/
  | rows
  /-- `_blockSize`, `_headerSize`, dyscostman.h:390-392 -/
  | layout
  /-- `_nBlocksInFile`, dyscostman.h:387 -/
  | nBlocks
  /-- `*_fStream`, dyscostman.h:394 -/
  | stream
  /-- `_cache` with the map nodes and `isBeingWritten`, threadeddyscocolumn.h:217, 167 -/
  | cache (i : Fin c)
  /-- `_stopThreads`, threadeddyscocolumn.h:218 -/
  | stop (i : Fin c)
  /-- `_rnd`, dyscodatacolumn.h:81 -/
  | rng (i : Fin c)
  /-- `_offsetInBlock` (dyscostmancol.h:115), `_bitsPerSymbol`, `_shape`, `_blockSize`, `_antennaCount`
  (threadeddyscocolumn.h:208-209, 224-225), the settings and dictionaries of dyscodatacolumn.h:82-87, and what
  `MetaDataCount`, `SymbolCount` and `WeightBlockEncoder::Encode` use of their objects -/
  | config (i : Fin c)
  /-- what only the client uses: `_threadGroup`, `_currentBlock`, `_isCurrentBlockChanged`, `_timeBlockBuffer`, the
  columns of the table, the last written time, the read buffers, and the state of the decoder -/
  | mine (i : Fin c)
  /-- the content of the `k`-th `TimeBlockBuffer` of the column, and the pointer to it in its `CacheItem` -/
  | obj (i : Fin c) (k : Nat)
deriving DecidableEq

/-- The C++ memory model; not in the code. -/
abbrev MAct (P : (i : Fin c) → Params (W i) K) := Act (Thr P) (Mut c) (Var c)
/-- The C++ memory model; not in the code. -/
abbrev MEv (P : (i : Fin c) → Params (W i) K) := Ev (Thr P) (Mut c) (Var c)

/-- Which of the buffers that were stored is the last one for block `b`. threadeddyscocolumn.cc:150, 158. -/
def lastIdx {A : Type} (l : List (Nat × A)) (b : Nat) : Nat :=
  l.zipIdx.foldl (fun a x => if x.1.1 = b then x.2 else a) 0

variable {n : Nat} {V : Type}

/-- The buffer that the client fills. threadeddyscocolumn.h:227. -/
def curObj (i : Fin c) (s : State V K n) : Var c := .obj i s.stores.length

/-- The end of `putValues` and `getValues`: threadeddyscocolumn.cc:213-217, 138-140. -/
def finishActs (P : (i : Fin c) → Params (W i) K) (i : Fin c) (s : State V K n) : List (MAct P) :=
  [.read .rows, .read (curObj i s), .write (curObj i s), .write (.mine i)]

/-- threadeddyscocolumn.cc:204-213, 132-135. -/
def accessActs (P : (i : Fin c) → Params (W i) K) (i : Fin c) (s : State V K n) (k : Next V) : List (MAct P) :=
  [.read .rows, .read (.mine i)] ++ if k.row / s.rowsPerBlock ≠ s.current then [] else finishActs P i s

/-- `putValues`, threadeddyscocolumn.cc:170-219, up to `storeBlock` or `loadBlock`. -/
def putActs (P : (i : Fin c) → Params (W i) K) (i : Fin c) (s : State V K n) (row : Nat) (v : V) : List (MAct P) :=
  if s.rowsPerBlock ≠ 0 then accessActs P i s (.put row v) else .read (.mine i) :: finishActs P i s

/-- `getValues`, threadeddyscocolumn.cc:107-121, dyscostman.h:239-242. -/
def getActs (P : (i : Fin c) → Params (W i) K) (s : State V K n) : List (MAct P) :=
  if s.rowsPerBlock = 0 then [.read .rows] else [.read .rows, .acquire none, .read .nBlocks, .release none]

/-- A step of the client in a call of column `i`. -/
def callActs (i : Fin c) (s : State (W i) K (P i).threads) : List (MAct P) :=
  match s.client with
  | .store _ =>
    -- `storeBlock`, 146-167
    if (P i).maxCache ≤ s.cache.length ∨ s.cache.has s.current then
      [.acquire (some i), .read (.mine i), .write (curObj i s), .read (.cache i), .release (some i)]
    else
      [.acquire (some i), .read (.mine i), .write (curObj i s), .read (.cache i), .write (.cache i), .release (some i),
        .write (.mine i), .read (.config i), .write (.obj i (s.stores.length + 1))]
  | .getLock row =>
    [.acquire (some i), .read (.cache i), .release (some i)] ++
      if s.cache.has (row / s.rowsPerBlock) then [] else accessActs P i s (.get row)
  | .load _ =>
    -- `loadBlock`, 79-104, dyscostman.cc:412-429
    [.acquire none, .read .nBlocks, .release none, .read .rows, .read (.config i), .write (.mine i),
      .acquire none, .read .layout, .read (.config i), .write .stream, .read .nBlocks, .release none,
      .write (curObj i s)] ++ finishActs P i s
  | .stopLock =>
    -- `stopThreads`, 50-67
    [.acquire (some i), .read (.mine i), .read (.cache i), .write (.stop i), .release (some i)]
  | .join => (List.finRange (P i).threads).map (fun t => .join (some ⟨i, t⟩)) ++ [.write (.mine i)]
  | _ => []

/-- Starting the threads of a column, threadeddyscocolumn.cc:261-268. -/
def createActs (P : (i : Fin c) → Params (W i) K) (i : Fin c) : List (MAct P) :=
  (List.finRange (P i).threads).map fun t => .create (some ⟨i, t⟩)

/-- One turn of the loop of `initializeRowsPerBlock` for column `i` before the threads are started,
dyscostman.cc:273-280, threadeddyscocolumn.cc:249-266. -/
def initActs (P : (i : Fin c) → Params (W i) K) (i : Fin c) : List (MAct P) :=
  [.read .rows, .read (.config i), .write (.config i), .read .layout, .write .layout, .acquire (some i), .read (.mine i),
    .read (.cache i), .release (some i), .write (.config i), .write (.mine i), .write (.stop i)]

/-- `writeHeader`, dyscostman.cc:178-211. -/
def headerActs (P : (i : Fin c) → Params (W i) K) : List (MAct P) :=
  [.write .stream, .read .rows, .read .layout, .write .layout] ++ (List.finRange c).map fun i => .read (.config i)

/-- A step of the client. -/
def MState.clientActs (S : MState P) : List (MAct P) :=
  match S.pc with
  | .idle =>
    match S.todo with
    | [] => []
    | .put i row v :: _ =>
      if startsBlocks (P i) (S.view i) row then
        -- up to the loop of `initializeRowsPerBlock`: 184-202, dyscostman.cc:261-272
        [.read .rows, .read (.mine i), .read (curObj i (S.view i)), .write .rows, .write .layout]
      else putActs P i (S.view i) row v
    | .get i _ :: _ => getActs P (S.view i)
    | .close :: _ => []
  | .call i | .closing i => callActs i (S.view i)
  | .init _ _ _ k =>
    if h : k < c then initActs P ⟨k, h⟩ ++ if (S.cols ⟨k, h⟩).cache ≠ [] then [] else createActs P ⟨k, h⟩ else []
  | .header i row v => headerActs P ++ putActs P i (S.view i) row v
  | .close k => if h : k < c then [.read (.mine ⟨k, h⟩)] else []
  | .closed | .failed | .unsupported => []

/-- Looking for an item, threadeddyscocolumn.cc:315-323. -/
def seekActs (P : (i : Fin c) → Params (W i) K) (i : Fin c) : List (MAct P) :=
  [.read (.cache i), .write (.cache i), .read (.stop i)]

/-- A step of an encoder thread of column `i`. -/
def threadActs (P : (i : Fin c) → Params (W i) K) (i : Fin c) (s : State V K n) (t : Fin n) : List (MAct P) :=
  match s.threads t with
  | .head =>
    -- the beginning of the functor, 300-312, dyscodatacolumn.cc:66-87, is here each time
    [.read (.config i), .read .rows, .acquire (some i), .read (.config i), .read (.rng i), .write (.rng i),
      .read (.stop i)] ++ seekActs P i ++ [.release (some i)]
  | .woken => .acquire (some i) :: seekActs P i ++ [.release (some i)]
  | .encode b _ =>
    -- `encodeAndWrite`, 272-294, dyscostman.cc:431-445
    [.read (.config i), .read .rows, .read (.obj i (lastIdx s.stores b)), .write (.obj i (lastIdx s.stores b)),
      .acquire none, .read .nBlocks, .write .nBlocks, .read .layout, .read (.config i), .write .stream, .release none]
  | .written b =>
    -- `delete &item; cache.erase(i)`, 329-332
    [.acquire (some i), .write (.obj i (lastIdx s.stores b)), .write (.cache i), .release (some i)]
  | .wait | .done => []

/-- What the step with this label does. The accesses of threadeddyscocolumn.cc:38-336. -/
def events (S : MState P) : MLabel P → List (MEv P)
  | .client _ => S.clientActs.map fun a => ⟨none, a⟩
  | .thread i t => (threadActs P i (S.view i) t).map fun a => ⟨some ⟨i, t⟩, a⟩
  | .spuriousThread _ _ | .spuriousClient _ => []

/-- All events along a schedule. Schedules; not in the code. -/
def mtrace (S : MState P) : List (MLabel P) → List (MEv P)
  | [] => []
  | l :: ls => events S l ++ match mstep S l with
    | some S' => mtrace S' ls
    | none => []

/-- What the client does before: it creates the manager and the columns, and for an existing table it starts the
threads (`prepare`, dyscostman.cc:346-373). -/
def firstEvents (P : (i : Fin c) → Params (W i) K) (rows : Nat) : List (MEv P) :=
  ((([.rows, .layout, .nBlocks, .stream] : List (Var c)).map Act.write ++
    (List.finRange c).flatMap fun i =>
      ([.cache i, .stop i, .rng i, .config i, .mine i, .obj i 0] : List (Var c)).map Act.write) ++
    if rows = 0 then [] else (List.finRange c).flatMap fun i => createActs P i).map fun a => ⟨none, a⟩

end Dysco.Multi
