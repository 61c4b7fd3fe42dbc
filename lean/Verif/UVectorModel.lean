import Verif.LoopModel

/-!
# `UVector` (uvector.h)

The container is modelled with an explicit heap of memory blocks, so that accesses to released memory,
out of bounds accesses, leaks and allocation failures are visible.

* A block is an array of cells; a cell is `none` when it was never written (uninitialised). Copying an
  uninitialised cell copies the `none`.
* A pointer is a block number, or `none` for `nullptr`. `_end` and `_endOfStorage` are stored as the
  distances `size = _end - _begin` and `cap = _endOfStorage - _begin`.
* Iterator arguments are indices. Arguments of type `const Tp&` and ranges are given as `Ref`s, which can
  refer to a cell of a block and are followed when the code does so.
* Outcomes: `ok`, `throw` (`std::bad_alloc` or `std::out_of_range`, with the state at that point), and `ub`.
* Any allocation may fail: `fails k n` tells whether the `k`-th allocation, of `n` elements, throws.
* Not modelled: allocators that are stateful (all allocators are equal), element types with constructors
  (the class supports only simple types, uvector.h:497-500), size computations beyond `size_t`.
-/

namespace Dysco.UVec

variable {α A B : Type}

/-- The memory. `mem p` is the block with number `p`, if it is allocated. The allocator; uvector.h:785-791. -/
structure Heap (α : Type) where
  next : Nat
  mem : Nat → Option (Buf (Option α))
  fails : Nat → Nat → Bool

/-- `mem p := b`. Not in the code. -/
def Heap.put (h : Heap α) (p : Nat) (b : Option (Buf (Option α))) : Heap α :=
  { h with mem := fun q => if q = p then b else h.mem q }

/-- A fresh block of `n` uninitialised elements. uvector.h:785. -/
def blank (n : Nat) : Buf (Option α) := ⟨n, fun _ => none⟩

/-- `UVector`, uvector.h:115: `_begin`, `_end - _begin`, `_endOfStorage - _begin`. -/
structure Vec where
  ptr : Option Nat
  size : Nat
  cap : Nat

/-- `UVector()`, uvector.h:121-122. -/
def Vec.empty : Vec := ⟨none, 0, 0⟩

/-- The memory and the vector on which a method is called. uvector.h:121-1149. -/
structure St (α : Type) where
  heap : Heap α
  v : Vec

/-- Outcome of a method. uvector.h:405-411, 902-904; undefined behaviour is an outcome. -/
inductive Res (σ A : Type) where
  | ok (a : A) (s : σ)
  | throw (s : σ)
  | ub

/-- A method body. uvector.h:121-1149. -/
def M (α A : Type) := St α → Res (St α) A

/-- Do nothing. Not in the code. -/
def M.ret (a : A) : M α A := fun s => .ok a s

/-- One statement after another. Not in the code. -/
def M.bind (m : M α A) (f : A → M α B) : M α B := fun s =>
  match m s with
  | .ok a s' => f a s'
  | .throw s' => .throw s'
  | .ub => .ub

instance : Monad (M α) where
  pure := M.ret
  bind := M.bind

/-- The members of the vector. uvector.h:115. -/
def self : M α Vec := fun s => .ok s.v s

/-- Assignment to the members. uvector.h:115. -/
def setSelf (v : Vec) : M α Unit := fun s => .ok () { s with v := v }

/-- Throw an exception. uvector.h:902-904. -/
def raise : M α A := fun s => .throw s

/-- Undefined behaviour. Not in the code. -/
def undefinedBehaviour : M α A := fun _ => .ub

/-- `allocate`, uvector.h:785. -/
def allocate (n : Nat) : M α Nat := fun s =>
  if s.heap.fails s.heap.next n then .throw { s with heap := { s.heap with next := s.heap.next + 1 } }
  else .ok s.heap.next
    { s with heap := { (s.heap.put s.heap.next (some (blank n))) with next := s.heap.next + 1 } }

/-- `deallocate(begin, n)`, uvector.h:787-791; releasing a block twice is undefined. -/
def deallocate (p : Option Nat) : M α Unit := fun s =>
  match p with
  | none => .ok () s
  | some p =>
    match s.heap.mem p with
    | none => .ub
    | some _ => .ok () { s with heap := s.heap.put p none }

/-- Read the cell `p[i]`. uvector.h:396-432. -/
def load (p : Option Nat) (i : Nat) : M α (Option α) := fun s =>
  match p.bind s.heap.mem with
  | none => .ub
  | some b => if i < b.len then .ok (b.get i) s else .ub

/-- Write the cell `p[i]`. uvector.h:396-432. -/
def store (p : Option Nat) (i : Nat) (x : Option α) : M α Unit := fun s =>
  match p with
  | none => .ub
  | some p =>
    match s.heap.mem p with
    | none => .ub
    | some b =>
      if i < b.len then
        .ok () { s with heap := s.heap.put p (some ⟨b.len, fun j => if j = i then x else b.get j⟩) }
      else .ub

/-- An argument of type `const Tp&`: a value outside the containers, or a cell of a block. e.g. uvector.h:489, 520. -/
inductive Ref (α : Type) where
  | val (x : α)
  | cell (p : Nat) (i : Nat)

/-- Use of a `const Tp&`. e.g. uvector.h:489-497. -/
def deref : Ref α → M α (Option α)
  | .val x => M.ret (some x)
  | .cell p i => load (some p) i

/-- `for (k = 0; k != n; ++k) body(k)`. e.g. uvector.h:894-897. -/
def loop (n : Nat) (body : Nat → M α Unit) : M α Unit :=
  match n with
  | 0 => pure ()
  | n + 1 => do loop n body; body n

/-- `std::copy` and `std::move` of `n` elements from `p + i` to `q + j`, in increasing order.
e.g. uvector.h:163-170, 308-312. -/
def copyRange (p : Option Nat) (i : Nat) (q : Option Nat) (j n : Nat) : M α Unit :=
  loop n fun k => do
    let x ← load p (i + k)
    store q (j + k) x

/-- `std::move_backward` of `n` elements from `p + i` to `p + j`, in decreasing order. e.g. uvector.h:520-535. -/
def moveBackward (p : Option Nat) (i j n : Nat) : M α Unit :=
  loop n fun k => do
    let x ← load p (i + (n - 1 - k))
    store p (j + (n - 1 - k)) x

/-- `*dest++ = *first++` over a range, also `std::uninitialized_fill_n` (the same reference repeated).
uvector.h:140-143, 794-815. -/
def writeAll (q : Option Nat) (j : Nat) : List (Ref α) → M α Unit
  | [] => pure ()
  | r :: rs => do
    let x ← deref r
    store q j x
    writeAll q (j + 1) rs

/-- `enlarge_size`, uvector.h:906-908. -/
def enlargeSize (v : Vec) (extra : Nat) : Nat := v.size + max v.size extra

/-- `enlarge`, uvector.h:910-917. -/
def enlarge (newSize : Nat) : M α Unit := do
  let v ← self
  let q ← allocate newSize
  copyRange v.ptr 0 (some q) 0 v.size
  deallocate v.ptr
  setSelf ⟨some q, v.size, newSize⟩

/-- `enlarge_for_insert`, uvector.h:919-927. -/
def enlargeForInsert (newSize pos count : Nat) : M α Unit := do
  let v ← self
  let q ← allocate newSize
  copyRange v.ptr 0 (some q) 0 pos
  copyRange v.ptr pos (some q) (pos + count) (v.size - pos)
  deallocate v.ptr
  setSelf ⟨some q, v.size + count, newSize⟩

/-- `resize(n)`, uvector.h:305-315. -/
def resize (n : Nat) : M α Unit := do
  let v ← self
  if v.cap < n then
    let newSize := enlargeSize v n
    let q ← allocate newSize
    copyRange v.ptr 0 (some q) 0 v.size
    deallocate v.ptr
    setSelf ⟨some q, n, newSize⟩
  else setSelf { v with size := n }

/-- `resize(n, val)`, uvector.h:325-336. -/
def resizeVal (n : Nat) (x : Ref α) : M α Unit := do
  let v ← self
  if v.cap < n then
    let q ← allocate n
    copyRange v.ptr 0 (some q) 0 v.size
    deallocate v.ptr
    setSelf ⟨some q, n, n⟩
  else setSelf { v with size := n }
  let w ← self
  if v.size < n then writeAll w.ptr v.size (List.replicate (n - v.size) x) else pure ()

/-- `reserve`, uvector.h:357-367. -/
def reserve (n : Nat) : M α Unit := do
  let v ← self
  if v.cap < n then
    let q ← allocate n
    copyRange v.ptr 0 (some q) 0 v.size
    deallocate v.ptr
    setSelf ⟨some q, v.size, n⟩
  else pure ()

/-- `shrink_to_fit`, uvector.h:378-393. -/
def shrinkToFit : M α Unit := do
  let v ← self
  if v.size = 0 then
    deallocate v.ptr
    setSelf ⟨none, 0, 0⟩
  else if v.size < v.cap then
    let q ← allocate v.size
    copyRange v.ptr 0 (some q) 0 v.size
    deallocate v.ptr
    setSelf ⟨some q, v.size, v.size⟩
  else pure ()

/-- `operator[]` used to read, uvector.h:396-399. -/
def readAt (i : Nat) : M α (Option α) := do
  let v ← self
  load v.ptr i

/-- `operator[]` used to write, uvector.h:396. -/
def writeAt (i : Nat) (x : α) : M α Unit := do
  let v ← self
  store v.ptr i (some x)

/-- `at`, uvector.h:405-417 and `check_bounds`, 902-904. -/
def at' (i : Nat) : M α (Option α) := do
  let v ← self
  if v.size ≤ i then raise
  else load v.ptr i

/-- `assign`, all overloads: uvector.h:443-483, 822-857. -/
def assign (xs : List (Ref α)) : M α Unit := do
  let v ← self
  if v.cap < xs.length then
    let q ← allocate xs.length
    deallocate v.ptr
    setSelf ⟨some q, xs.length, xs.length⟩
  else setSelf { v with size := xs.length }
  let w ← self
  writeAll w.ptr 0 xs

/-- `push_back(item)`, `emplace_back`, uvector.h:489-507, 695-701. -/
def pushBack (x : Ref α) : M α Unit := do
  let v ← self
  if v.size = v.cap then enlarge (enlargeSize v 1) else pure ()
  let w ← self
  let y ← deref x
  store w.ptr w.size y
  setSelf { w with size := w.size + 1 }

/-- `push_back` of several elements, uvector.h:740-773, 1037-1065. -/
def pushBackAll (xs : List (Ref α)) : M α Unit := do
  let v ← self
  if v.cap - v.size < xs.length then enlarge (enlargeSize v xs.length) else pure ()
  let w ← self
  writeAll w.ptr w.size xs
  setSelf { w with size := w.size + xs.length }

/-- `push_back_uninitialized`, uvector.h:782. -/
def pushBackUninitialized (n : Nat) : M α Unit := do
  let v ← self
  resize (v.size + n)

/-- `pop_back`, uvector.h:510; on an empty vector the result is not a valid vector. -/
def popBack : M α Unit := do
  let v ← self
  if v.size = 0 then undefinedBehaviour else setSelf { v with size := v.size - 1 }

/-- `insert(position, item)`, `emplace`, uvector.h:520-531, 585-596, 677-688. -/
def insert (pos : Nat) (x : Ref α) : M α Unit := do
  let v ← self
  if v.size = v.cap then enlargeForInsert (enlargeSize v 1) pos 1
  else
    moveBackward v.ptr pos (pos + 1) (v.size - pos)
    setSelf { v with size := v.size + 1 }
  let w ← self
  let y ← deref x
  store w.ptr pos y

/-- `insert_uninitialized`, uvector.h:720-730. -/
def insertUninitialized (pos n : Nat) : M α Unit := do
  let v ← self
  if v.cap < v.size + n then enlargeForInsert (enlargeSize v n) pos n
  else
    moveBackward v.ptr pos (pos + n) (v.size - pos)
    setSelf { v with size := v.size + n }

/-- `insert` of several elements, uvector.h:543-570, 607-623, 861-900. -/
def insertAll (pos : Nat) (xs : List (Ref α)) : M α Unit := do
  insertUninitialized pos xs.length
  let w ← self
  writeAll w.ptr pos xs

/-- `erase(position)`, uvector.h:631-635. -/
def erase (pos : Nat) : M α Unit := do
  let v ← self
  copyRange v.ptr (pos + 1) v.ptr pos (v.size - (pos + 1))
  setSelf { v with size := v.size - 1 }

/-- `erase(first, last)`, uvector.h:644-648. -/
def eraseRange (first last : Nat) : M α Unit := do
  let v ← self
  copyRange v.ptr last v.ptr first (v.size - last)
  setSelf { v with size := v.size - (last - first) }

/-- `clear`, uvector.h:666. -/
def clear : M α Unit := do
  let v ← self
  setSelf { v with size := 0 }

/-- Construction with `n` uninitialised elements, uvector.h:131. -/
def construct (n : Nat) : M α Unit := do
  let q ← allocate n
  setSelf ⟨some q, n, n⟩

/-- Construction from values or a range, uvector.h:140-154, 214-225, 794-819. -/
def constructFrom (xs : List (Ref α)) : M α Unit := do
  let q ← allocate xs.length
  setSelf ⟨some q, xs.length, xs.length⟩
  writeAll (some q) 0 xs

/-- Copy construction, uvector.h:162-181. -/
def copyConstruct (other : Vec) : M α Unit := do
  let q ← allocate other.size
  setSelf ⟨some q, other.size, other.size⟩
  copyRange other.ptr 0 (some q) 0 other.size

/-- `operator=(const UVector&)` with equal allocators: `assign_copy_from`, uvector.h:931-942. -/
def copyAssign (other : Vec) : M α Unit := do
  let v ← self
  let n := other.size
  if v.cap < n then
    let q ← allocate n
    deallocate v.ptr
    setSelf ⟨some q, n, n⟩
  else pure ()
  let w ← self
  copyRange other.ptr 0 w.ptr 0 n

/-- The destructor, uvector.h:228. -/
def destroy : M α Unit := do
  let v ← self
  deallocate v.ptr

/-! ## Several vectors -/

/-- The vectors of a program, by number, with the memory; `none`: no such object at this time.
Not in the code: a program that uses uvector.h. -/
structure Pool (α : Type) where
  heap : Heap α
  vecs : Nat → Option Vec

/-- Set the object `i`. Not in the code. -/
def setAt {β : Type} (f : Nat → β) (i : Nat) (x : β) : Nat → β := fun j => if j = i then x else f j

/-- A method call on object `i`. Not in the code. -/
def Pool.on (m : M α A) (i : Nat) : Pool α → Res (Pool α) A := fun P =>
  match P.vecs i with
  | none => .ub
  | some v =>
    match m ⟨P.heap, v⟩ with
    | .ok a s => .ok a ⟨s.heap, setAt P.vecs i (some s.v)⟩
    | .throw s => .throw ⟨s.heap, setAt P.vecs i (some s.v)⟩
    | .ub => .ub

/-- Construction of object `i`; when the constructor throws there is no object. uvector.h:121-228. -/
def Pool.new (m : M α Unit) (i : Nat) : Pool α → Res (Pool α) Unit := fun P =>
  match P.vecs i with
  | some _ => .ub
  | none =>
    match m ⟨P.heap, Vec.empty⟩ with
    | .ok a s => .ok a ⟨s.heap, setAt P.vecs i (some s.v)⟩
    | .throw s => .throw ⟨s.heap, P.vecs⟩
    | .ub => .ub

/-- Operations of a program; the element arguments are values outside the containers. uvector.h:121-782. -/
inductive Op (α : Type) where
  | default (i : Nat)
  | sized (i n : Nat)
  | from (i : Nat) (xs : List α)
  | copyOf (i j : Nat)
  | moveOf (i j : Nat)
  | destroy (i : Nat)
  | moveAssign (i j : Nat)
  | swap (i j : Nat)
  | set (i k : Nat) (x : α)
  | resize (i n : Nat)
  | resizeVal (i n : Nat) (x : α)
  | reserve (i n : Nat)
  | shrinkToFit (i : Nat)
  | assign (i : Nat) (xs : List α)
  | pushBack (i : Nat) (x : α)
  | pushBackAll (i : Nat) (xs : List α)
  | pushBackUninitialized (i n : Nat)
  | popBack (i : Nat)
  | insert (i pos : Nat) (x : α)
  | insertAll (i pos : Nat) (xs : List α)
  | insertUninitialized (i pos n : Nat)
  | erase (i pos : Nat)
  | eraseRange (i first last : Nat)
  | clear (i : Nat)

/-- Move construction, uvector.h:186-194. -/
def Pool.moveOf (i j : Nat) : Pool α → Res (Pool α) Unit := fun P =>
  match P.vecs i, P.vecs j with
  | none, some w => .ok () ⟨P.heap, setAt (setAt P.vecs i (some w)) j (some Vec.empty)⟩
  | _, _ => .ub

/-- The destructor, uvector.h:228. -/
def Pool.destroy (i : Nat) : Pool α → Res (Pool α) Unit := fun P =>
  match Pool.on UVec.destroy i P with
  | .ok a Q => .ok a ⟨Q.heap, setAt Q.vecs i none⟩
  | .throw Q => .throw Q
  | .ub => .ub

/-- `operator=(UVector&&)`, uvector.h:964-974, 986-996: release the own storage, take the members of the other
vector (read after the release, so for self assignment the released pointer), reset the other vector. -/
def Pool.moveAssign (i j : Nat) : Pool α → Res (Pool α) Unit := fun P =>
  match Pool.on UVec.destroy i P with
  | .ok a Q =>
    match Q.vecs j with
    | none => .ub
    | some w => .ok a ⟨Q.heap, setAt (setAt Q.vecs i (some w)) j (some Vec.empty)⟩
  | .throw Q => .throw Q
  | .ub => .ub

/-- `swap`, uvector.h:999-1010. -/
def Pool.swap (i j : Nat) : Pool α → Res (Pool α) Unit := fun P =>
  match P.vecs i, P.vecs j with
  | some v, some w => .ok () ⟨P.heap, setAt (setAt P.vecs i (some w)) j (some v)⟩
  | _, _ => .ub

/-- Copy construction of object `i` from object `j`. uvector.h:162-170. -/
def Pool.copyOf (i j : Nat) : Pool α → Res (Pool α) Unit := fun P =>
  match P.vecs j with
  | none => .ub
  | some w => Pool.new (copyConstruct w) i P

/-- Copy assignment of object `j` to object `i`. uvector.h:235-238, 931-960. -/
def Pool.copyAssign (i j : Nat) : Pool α → Res (Pool α) Unit := fun P =>
  match P.vecs j with
  | none => .ub
  | some w => Pool.on (UVec.copyAssign w) i P

/-- Execution of one operation. uvector.h:121-782. -/
def Op.exec : Op α → Pool α → Res (Pool α) Unit
  | .default i => Pool.new (pure ()) i
  | .sized i n => Pool.new (construct n) i
  | .from i xs => Pool.new (constructFrom (xs.map .val)) i
  | .copyOf i j => Pool.copyOf i j
  | .moveOf i j => Pool.moveOf i j
  | .destroy i => Pool.destroy i
  | .moveAssign i j => Pool.moveAssign i j
  | .swap i j => Pool.swap i j
  | .set i k x => Pool.on (writeAt k x) i
  | .resize i n => Pool.on (UVec.resize n) i
  | .resizeVal i n x => Pool.on (UVec.resizeVal n (.val x)) i
  | .reserve i n => Pool.on (UVec.reserve n) i
  | .shrinkToFit i => Pool.on UVec.shrinkToFit i
  | .assign i xs => Pool.on (UVec.assign (xs.map .val)) i
  | .pushBack i x => Pool.on (UVec.pushBack (.val x)) i
  | .pushBackAll i xs => Pool.on (UVec.pushBackAll (xs.map .val)) i
  | .pushBackUninitialized i n => Pool.on (UVec.pushBackUninitialized n) i
  | .popBack i => Pool.on UVec.popBack i
  | .insert i pos x => Pool.on (UVec.insert pos (.val x)) i
  | .insertAll i pos xs => Pool.on (UVec.insertAll pos (xs.map .val)) i
  | .insertUninitialized i pos n => Pool.on (UVec.insertUninitialized pos n) i
  | .erase i pos => Pool.on (UVec.erase pos) i
  | .eraseRange i first last => Pool.on (UVec.eraseRange first last) i
  | .clear i => Pool.on UVec.clear i

/-- Execution of a program; exceptions are caught after the operation that throws them.
Not in the code: a program that uses uvector.h. -/
def run : List (Op α) → Pool α → Option (Pool α)
  | [], P => some P
  | op :: ops, P =>
    match op.exec P with
    | .ok _ Q => run ops Q
    | .throw Q => run ops Q
    | .ub => none

/-! ## Comparison -/

/-- `operator==`, uvector.h:1070-1072, on the visible elements. -/
def eqv [DecidableEq α] (a b : List α) : Bool :=
  a.length == b.length && (List.range a.length).all fun i => a[i]? == b[i]?

/-- The loop of `operator<` and `operator<=`, uvector.h:1085-1094 and 1101-1110, from position `i` on;
`last` is the result when no difference is found. -/
def cmpLoop (lt : α → α → Bool) (last : Bool) : List α → List α → Bool
  | x :: xs, y :: ys => if lt x y then true else if lt y x then false else cmpLoop lt last xs ys
  | _, _ => last

/-- `operator<`, uvector.h:1085-1094. -/
def less (lt : α → α → Bool) (a b : List α) : Bool := cmpLoop lt (decide (a.length < b.length)) a b

/-- `operator<=`, uvector.h:1101-1110. -/
def lessEq (lt : α → α → Bool) (a b : List α) : Bool := cmpLoop lt (decide (a.length ≤ b.length)) a b

/-- `operator>`, uvector.h:1117-1119. -/
def greater (lt : α → α → Bool) (a b : List α) : Bool := less lt b a

/-- `operator>=`, uvector.h:1126-1128. -/
def greaterEq (lt : α → α → Bool) (a b : List α) : Bool := lessEq lt b a

end Dysco.UVec
