import Verif.StManModel

/-!
# Threads on the stream of the storage manager

`StManModel` takes the functions of the storage manager as single steps. Here they are split at the calls on the
shared stream and at the shared variables: `seekp` and `write` are different steps, and other threads may run in
between. The stream has one position for reading and writing (`std::fstream` of a file).

`readCompressedData`, `writeCompressedData` and `nBlocksInFile` hold the mutex `_mutex` of the manager from beginning
to end; `writeHeader` does not take it.
-/

namespace Dysco.Stream
open BytePacker StMan

/-- What is done to the fields of the manager before `writeHeader` is called. -/
inductive Change where
  /-- `create`, `addColumn`: dyscostman.cc:176, 396 -/
  | none
  /-- `initializeRowsPerBlock`, dyscostman.cc:270-281 -/
  | layout (rows ants : Nat)
  /-- `removeColumn`, dyscostman.cc:404-405 -/
  | remove (i : Nat)

/-- dyscostman.cc:201-208, 441. -/
def Change.apply (m : Man) : Change → Man
  | .none => m
  | .layout rows ants =>
    { m with
      rowsPerBlock := rows % 2 ^ 32
      antennaCount := ants % 2 ^ 32
      columns := (layoutColumns rows ants m.columns 0).1
      blockSize := (layoutColumns rows ants m.columns 0).2 }
  | .remove i => { m with columns := m.columns.eraseIdx i }

/-- Calls of the storage manager that use the stream. -/
inductive Req where
  /-- `writeCompressedData`, dyscostman.cc:432-445 -/
  | write (block : Nat) (c : Column) (data : Mem 8) (size : Nat)
  /-- `readCompressedData`, dyscostman.cc:413-430 -/
  | read (block : Nat) (c : Column) (dest : Mem 8) (size : Nat)
  /-- `nBlocksInFile`, dyscostman.h:239-242 -/
  | count
  /-- `writeHeader`, dyscostman.cc:178-211 -/
  | header (ch : Change)

/-- What a call returns; `ok = false`: an exception. dyscostman.cc:209-210, 422-427, 442-444. -/
inductive Resp where
  | done (ok : Bool)
  | bytes (dest : Mem 8) (ok : Bool)
  | number (n : Nat)

/-- The calls as single steps, as in `StManModel`. dyscostman.cc:178-211, 413-445, dyscostman.h:239-242. -/
def exec (m : Man) : Req → Man × Resp
  | .write b c d size => ((writeCompressedData b c d size m).1, .done (writeCompressedData b c d size m).2)
  | .read b c d size =>
    ((readCompressedData b c d size m).1, .bytes (readCompressedData b c d size m).2.1 (readCompressedData b c d size m).2.2)
  | .count => (m, .number m.nBlocks)
  | .header ch => ((writeHeader (ch.apply m)).1, .done (writeHeader (ch.apply m)).2)

/-- Where a thread is; the comment names what comes next. -/
inductive PC where
  | idle
  /-- set `_nBlocksInFile`, dyscostman.cc:436-438 -/
  | writeCount (b : Nat) (c : Column) (d : Mem 8) (size : Nat)
  /-- `seekp`, dyscostman.cc:439-440 -/
  | writeSeek (b : Nat) (c : Column) (d : Mem 8) (size : Nat)
  /-- `write` and unlock, dyscostman.cc:441-445 -/
  | writeData (b : Nat) (c : Column) (d : Mem 8) (size : Nat)
  /-- `seekg`, dyscostman.cc:417-420 -/
  | readSeek (b : Nat) (c : Column) (d : Mem 8) (size : Nat)
  /-- `read`, the check, and unlock, dyscostman.cc:421-430 -/
  | readData (b : Nat) (c : Column) (d : Mem 8) (size : Nat)
  /-- read `_nBlocksInFile` and unlock -/
  | countRead
  /-- `seekp(0)`, dyscostman.cc:179 -/
  | headSeek (ch : Change)
  /-- fill in the header, dyscostman.cc:180-199 -/
  | headFill (ch : Change)
  /-- write the bytes, one at a time; at the end check the stream, dyscostman.cc:201-210 -/
  | headBytes (ch : Change) (rest : List Byte)

/-- The request that a thread is working on. dyscostman.cc:178-211, 413-445, dyscostman.h:239-242. -/
def PC.req : PC → Option Req
  | .idle => none
  | .writeCount b c d size | .writeSeek b c d size | .writeData b c d size => some (.write b c d size)
  | .readSeek b c d size | .readData b c d size => some (.read b c d size)
  | .countRead => some .count
  | .headSeek ch | .headFill ch | .headBytes ch _ => some (.header ch)

/-- The thread holds the mutex. dyscostman.cc:416-430, 435-445, dyscostman.h:240-241. -/
def PC.locked : PC → Bool
  | .writeCount .. | .writeSeek .. | .writeData .. | .readSeek .. | .readData .. | .countRead => true
  | .idle | .headSeek _ | .headFill _ | .headBytes .. => false

/-- The thread is in `writeHeader`. dyscostman.cc:178-211. -/
def PC.inHeader : PC → Bool
  | .headSeek _ | .headFill _ | .headBytes .. => true
  | _ => false

/-- dyscostman.h:386-404 and the file. -/
structure State (n : Nat) where
  man : Man
  /-- position of the stream -/
  pos : Nat
  /-- who holds `_mutex` -/
  holder : Option (Fin n)
  pcs : Fin n → PC
  todo : Fin n → List Req
  /-- calls that returned, with their results, in the order of returning -/
  log : List (Fin n × Req × Resp)

variable {n : Nat}

/-- Thread `t` goes on to `pc`. Not in the code. -/
def State.goto (s : State n) (t : Fin n) (pc : PC) : State n := { s with pcs := Function.update s.pcs t pc }

/-- The call of thread `t` returns; a lock guard is released. dyscostman.cc:211, 430, 445, dyscostman.h:241. -/
def State.ret (s : State n) (t : Fin n) (holder : Option (Fin n)) (q : Req) (r : Resp) : State n :=
  { s with holder := holder, pcs := Function.update s.pcs t .idle, log := s.log ++ [(t, q, r)] }

/-- `seekp`/`seekg`: nothing happens on a stream that has failed. dyscostman.cc:179, 420, 440. -/
def State.seek (s : State n) (off : Nat) : State n := if s.man.failed then s else { s with pos := off }

/-- `write` at the position of the stream, which moves on. dyscostman.cc:201-207, 441. -/
def State.put (s : State n) (size : Nat) (g : Nat → Byte) : State n :=
  if s.man.failed then s
  else { s with man := { s.man with file := fwrite s.man.file s.pos size g }, pos := s.pos + size }

/-- What `read` leaves in the buffer. dyscostman.cc:421. -/
def State.got (s : State n) (dest : Mem 8) (size : Nat) : Mem 8 :=
  if s.man.failed then dest else
    ⟨dest.len, fun i => if i < size ∧ s.pos + i < s.man.file.len then s.man.file.get (s.pos + i) else dest.get i⟩

/-- The stream has failed after `read`. dyscostman.cc:422. -/
def State.short (s : State n) (size : Nat) : Prop := s.man.failed ∨ s.man.file.len < s.pos + size

instance (s : State n) (size : Nat) : Decidable (s.short size) := inferInstanceAs (Decidable (_ ∨ _))

/-- One step of thread `t`; `none`: it waits for the mutex or has nothing to do.
dyscostman.cc:178-211, 413-445, dyscostman.h:239-242. -/
def step (s : State n) (t : Fin n) : Option (State n) :=
  match s.pcs t with
  | .idle =>
    match s.todo t with
    | [] => none
    | .header ch :: rest =>
      some (State.goto { s with man := ch.apply s.man, todo := Function.update s.todo t rest } t (.headSeek ch))
    | .write b c d size :: rest =>
      if s.holder.isSome then none
      else some (State.goto { s with holder := some t, todo := Function.update s.todo t rest } t (.writeCount b c d size))
    | .read b c d size :: rest =>
      if s.holder.isSome then none
      else some (State.goto { s with holder := some t, todo := Function.update s.todo t rest } t (.readSeek b c d size))
    | .count :: rest =>
      if s.holder.isSome then none
      else some (State.goto { s with holder := some t, todo := Function.update s.todo t rest } t .countRead)
  | .writeCount b c d size =>
    some (State.goto { s with man := { s.man with nBlocks := if s.man.nBlocks ≤ b then b + 1 else s.man.nBlocks } } t
      (.writeSeek b c d size))
  | .writeSeek b c d size => some ((s.seek (getFileOffset s.man b + c.offset)).goto t (.writeData b c d size))
  | .writeData b c d size => some ((s.put size d.get).ret t none (.write b c d size) (.done (!s.man.failed)))
  | .readSeek b c d size => some ((s.seek (getFileOffset s.man b + c.offset)).goto t (.readData b c d size))
  | .readData b c d size =>
    if s.short size then
      if b + 1 ≠ s.man.nBlocks then
        some (State.ret { s with man := { s.man with failed := true } } t none (.read b c d size)
          (.bytes (s.got d size) false))
      else
        some (State.ret { s with man := { s.man with failed := false }, pos := s.man.file.len } t none (.read b c d size)
          (.bytes (s.got d size) true))
    else
      some (State.ret { s with pos := s.pos + size } t none (.read b c d size) (.bytes (s.got d size) true))
  | .countRead => some (s.ret t none .count (.number s.man.nBlocks))
  | .headSeek ch => some ((s.seek 0).goto t (.headFill ch))
  | .headFill ch =>
    some (State.goto { s with man := { s.man with headerSize := headerSizeOf s.man.name s.man.columns } } t
      (.headBytes ch s.man.headerBytes))
  | .headBytes ch (x :: rest) => some ((s.put 1 fun _ => x).goto t (.headBytes ch rest))
  | .headBytes ch [] => some (s.ret t s.holder (.header ch) (.done (!s.man.failed)))

/-- A run along a schedule: all states that are passed, the last one first. Schedules; not in the code. -/
inductive Run (s0 : State n) : List (State n) → Prop
  | start : Run s0 [s0]
  | step {s s' : State n} {l : List (State n)} (t : Fin n) : Run s0 (s :: l) → Stream.step s t = some s' →
      Run s0 (s' :: s :: l)

/-- All threads begin with their calls; `pos`: where the stream was left. dyscostman.cc:167-176, 284-305. -/
def initial (m : Man) (pos : Nat) (prog : Fin n → List Req) : State n where
  man := m
  pos := pos
  holder := none
  pcs := fun _ => .idle
  todo := prog
  log := []

/-- The header is written alone: meanwhile no other thread is in a call on the stream.
What C91 assumes; C130 shows it for dyscostman.cc:281. -/
def HeaderAlone (s : State n) : Prop := ∀ t u, (s.pcs t).inHeader = true → u ≠ t → s.pcs u = .idle

end Dysco.Stream
