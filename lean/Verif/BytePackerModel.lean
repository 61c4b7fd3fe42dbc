/-!
# Model of `bytepacker.h`

The bodies of `pack2 … unpack16` are straight-line sequences of four kinds of statements,
transcribed one by one as data (`Instr`) and executed on bounded memories.
An access outside a buffer is undefined behaviour: outcome `none` of `Instr.exec`.
-/

namespace Dysco.BytePacker

/-- A C array of `w`-bit unsigned cells with `len` valid elements.
`dest`, `symbolBuffer`, `packedBuffer` in bytepacker.h:36-146. -/
structure Mem (w : Nat) where
  len : Nat
  get : Nat → BitVec w

namespace Mem
/-- Store into one cell; the others keep their value. Assignments in bytepacker.h:220-732. -/
def set {w : Nat} (m : Mem w) (i : Nat) (v : BitVec w) : Mem w :=
  { m with get := fun j => if j = i then v else m.get j }
end Mem

/-- Shift part of a right-hand side: none, `<< k` or `>> k`. bytepacker.h:220-732. -/
inductive Shift where
  | id
  | shl (k : Nat)
  | shr (k : Nat)
deriving DecidableEq, Repr

/-- Right-hand side `(*src & mask) shift`; `mask = none` when the C++ has no mask. bytepacker.h:220-732. -/
structure Expr where
  mask : Option Nat
  sh : Shift
deriving DecidableEq, Repr

/-- `*src & mask` (or just `*src`). bytepacker.h:220-732. -/
def Expr.masked (e : Expr) (v : BitVec 32) : BitVec 32 :=
  match e.mask with
  | none => v
  | some k => v &&& BitVec.ofNat 32 k

/-- Value of a right-hand side in 32-bit `unsigned` arithmetic.  (In `unpackN` the operand is an
`unsigned char` promoted to `int`; all intermediate values are below 2^16 there, so `int` and
`unsigned` agree.) bytepacker.h:220-732. -/
def Expr.eval (e : Expr) (v : BitVec 32) : BitVec 32 :=
  match e.sh with
  | .id => e.masked v
  | .shl k => e.masked v <<< k
  | .shr k => e.masked v >>> k

/-- One C++ statement: `*dst = e`, `*dst |= e`, `++dst`, `++src`. bytepacker.h:220-732. -/
inductive Instr where
  | put (e : Expr)
  | bor (e : Expr)
  | nextDst
  | nextSrc
deriving DecidableEq, Repr

/-- The two moving pointers (as indices) and the destination array. `dest`, `symbolBuffer` in bytepacker.h:220-732. -/
structure St (wd : Nat) where
  sp : Nat
  dp : Nat
  dst : Mem wd

/-- Execute one statement. Reading `*src` or writing `*dst` outside the array is UB (`none`).
The stored value is truncated to the width of the destination cell. bytepacker.h:220-732. -/
def Instr.exec {ws wd : Nat} (src : Mem ws) (s : St wd) : Instr → Option (St wd)
  | .put e =>
    if s.sp < src.len ∧ s.dp < s.dst.len then
      some ⟨s.sp, s.dp, s.dst.set s.dp ((e.eval ((src.get s.sp).setWidth 32)).setWidth wd)⟩
    else none
  | .bor e =>
    if s.sp < src.len ∧ s.dp < s.dst.len then
      some ⟨s.sp, s.dp, s.dst.set s.dp
        (s.dst.get s.dp ||| (e.eval ((src.get s.sp).setWidth 32)).setWidth wd)⟩
    else none
  | .nextDst => some { s with dp := s.dp + 1 }
  | .nextSrc => some { s with sp := s.sp + 1 }

/-- Sequential execution. bytepacker.h:220-732. -/
def runList {ws wd : Nat} (src : Mem ws) : List Instr → St wd → Option (St wd)
  | [], s => some s
  | i :: is, s => (i.exec src s).bind (runList src is)

/-- `for (i = 0; i != limit; i++) body`. The loops of bytepacker.h:220-732. -/
def runLoop {ws wd : Nat} (src : Mem ws) (body : List Instr) : Nat → St wd → Option (St wd)
  | 0, s => some s
  | k + 1, s => (runList src body s).bind (runLoop src body k)

/-- The nested `if (pos != symbolCount) { chunk; ++pos; if (pos != symbolCount) … }`.
The ends of the functions in bytepacker.h:220-732. -/
def runTail {ws wd : Nat} (src : Mem ws) (n : Nat) :
    List (List Instr) → Nat → St wd → Option (St wd)
  | [], _, s => some s
  | c :: cs, pos, s =>
    if pos ≠ n then (runList src c s).bind (runTail src n cs (pos + 1)) else some s

/-- One `packN`/`unpackN` function: symbols per loop iteration, loop body, nested tail. bytepacker.h:220-732. -/
structure Prog where
  group : Nat
  body : List Instr
  tail : List (List Instr)

/-- `limit = symbolCount / group; loop; pos = limit * group; tail`. Each function in bytepacker.h:220-732. -/
def Prog.run {ws wd : Nat} (p : Prog) (src : Mem ws) (dst : Mem wd) (n : Nat) :
    Option (Mem wd) :=
  let limit := n / p.group
  match runLoop src p.body limit { sp := 0, dp := 0, dst := dst } with
  | none => none
  | some s =>
    match runTail src n p.tail (limit * p.group) s with
    | none => none
    | some s' => some s'.dst

/-! Notation for the statements. `eq`/`oreq` with mask and shift. -/

/-- `*src`. Notation for bytepacker.h:220-732. -/
def raw : Expr := ⟨none, .id⟩
/-- `*src << k`. Notation for bytepacker.h:220-732. -/
def rawL (k : Nat) : Expr := ⟨none, .shl k⟩
/-- `*src & m`. Notation for bytepacker.h:220-732. -/
def msk (m : Nat) : Expr := ⟨some m, .id⟩
/-- `(*src & m) << k`. Notation for bytepacker.h:220-732. -/
def mskL (m k : Nat) : Expr := ⟨some m, .shl k⟩
/-- `(*src & m) >> k`. Notation for bytepacker.h:220-732. -/
def mskR (m k : Nat) : Expr := ⟨some m, .shr k⟩

open Instr

/-- bytepacker.h:220-251 -/
def pack2 : Prog where
  group := 4
  body := [put raw, nextSrc, bor (rawL 2), nextSrc, bor (rawL 4), nextSrc, bor (rawL 6), nextSrc,
    nextDst]
  tail := [[put raw], [nextSrc, bor (rawL 2)], [nextSrc, bor (rawL 4)]]

/-- bytepacker.h:253-284 -/
def unpack2 : Prog where
  group := 4
  body := [put (msk 0x03), nextDst, put (mskR 0x0C 2), nextDst, put (mskR 0x30 4), nextDst,
    put (mskR 0xC0 6), nextDst, nextSrc]
  tail := [[put (msk 0x03)], [nextDst, put (mskR 0x0C 2)], [nextDst, put (mskR 0x30 4)]]

/-- bytepacker.h:286-353 -/
def pack3 : Prog where
  group := 8
  body := [put raw, nextSrc, bor (rawL 3), nextSrc, bor (mskL 0x3 6), nextDst,
    put (mskR 0x4 2), nextSrc, bor (rawL 1), nextSrc, bor (rawL 4), nextSrc, bor (mskL 0x1 7),
    nextDst,
    put (mskR 0x6 1), nextSrc, bor (rawL 2), nextSrc, bor (rawL 5), nextSrc, nextDst]
  tail := [[put raw], [nextSrc, bor (rawL 3)],
    [nextSrc, bor (mskL 0x3 6), nextDst, put (mskR 0x4 2)],
    [nextSrc, bor (rawL 1)], [nextSrc, bor (rawL 4)],
    [nextSrc, bor (mskL 0x1 7), nextDst, put (mskR 0x6 1)],
    [nextSrc, bor (rawL 2)]]

/-- bytepacker.h:355-431 -/
def unpack3 : Prog where
  group := 8
  body := [put (msk 0x07), nextDst, put (mskR 0x38 3), nextDst, put (mskR 0xC0 6), nextSrc,
    bor (mskL 0x01 2), nextDst, put (mskR 0x0e 1), nextDst, put (mskR 0x70 4), nextDst,
    put (mskR 0x80 7), nextSrc,
    bor (mskL 0x03 1), nextDst, put (mskR 0x1c 2), nextDst, put (mskR 0xe0 5), nextDst, nextSrc]
  tail := [[put (msk 0x07)], [nextDst, put (mskR 0x38 3)],
    [nextDst, put (mskR 0xC0 6), nextSrc, bor (mskL 0x01 2)],
    [nextDst, put (mskR 0x0e 1)], [nextDst, put (mskR 0x70 4)],
    [nextDst, put (mskR 0x80 7), nextSrc, bor (mskL 0x03 1)],
    [nextDst, put (mskR 0x1c 2)]]

/-- bytepacker.h:433-445 -/
def pack4 : Prog where
  group := 2
  body := [put raw, nextSrc, bor (rawL 4), nextSrc, nextDst]
  tail := [[put raw]]

/-- bytepacker.h:447-460 -/
def unpack4 : Prog where
  group := 2
  body := [put (msk 0x0F), nextDst, put (mskR 0xF0 4), nextDst, nextSrc]
  tail := [[put (msk 0x0F)]]

/-- bytepacker.h:462-508 -/
def pack6 : Prog where
  group := 4
  body := [put raw, nextSrc, bor (mskL 3 6), nextDst,
    put (mskR 60 2), nextSrc, bor (mskL 15 4), nextDst,
    put (mskR 48 4), nextSrc, bor (rawL 2), nextSrc, nextDst]
  tail := [[put raw], [nextSrc, bor (mskL 3 6), nextDst, put (mskR 60 2)],
    [nextSrc, bor (mskL 15 4), nextDst, put (mskR 48 4)]]

/-- bytepacker.h:510-554 -/
def unpack6 : Prog where
  group := 4
  body := [put (msk 63), nextDst, put (mskR 192 6), nextSrc,
    bor (mskL 15 2), nextDst, put (mskR 240 4), nextSrc,
    bor (mskL 3 4), nextDst, put (mskR 252 2), nextSrc, nextDst]
  tail := [[put (msk 63)], [nextDst, put (mskR 192 6), nextSrc, bor (mskL 15 2)],
    [nextDst, put (mskR 240 4), nextSrc, bor (mskL 3 4)]]

/-- bytepacker.h:556-559; `dest[i]` with running index written as moving pointers. -/
def pack8 : Prog where
  group := 1
  body := [put raw, nextSrc, nextDst]
  tail := []

/-- bytepacker.h:561-565 -/
def unpack8 : Prog where
  group := 1
  body := [put raw, nextSrc, nextDst]
  tail := []

/-- bytepacker.h:567-617 -/
def pack10 : Prog where
  group := 4
  body := [put (msk 0x0FF), nextDst,
    put (mskR 0x300 8), nextSrc, bor (mskL 0x03F 2), nextDst,
    put (mskR 0x3C0 6), nextSrc, bor (mskL 0x00F 4), nextDst,
    put (mskR 0x3F0 4), nextSrc, bor (mskL 0x003 6), nextDst,
    put (mskR 0x3FC 2), nextSrc, nextDst]
  tail := [[put (msk 0x0FF), nextDst, put (mskR 0x300 8)],
    [nextSrc, bor (mskL 0x03F 2), nextDst, put (mskR 0x3C0 6)],
    [nextSrc, bor (mskL 0x00F 4), nextDst, put (mskR 0x3F0 4)]]

/-- bytepacker.h:619-668 -/
def unpack10 : Prog where
  group := 4
  body := [put raw, nextSrc, bor (mskL 0x03 8), nextDst,
    put (mskR 0xFC 2), nextSrc, bor (mskL 0x0F 6), nextDst,
    put (mskR 0xF0 4), nextSrc, bor (mskL 0x3F 4), nextDst,
    put (mskR 0xC0 6), nextSrc, bor (rawL 2), nextSrc, nextDst]
  tail := [[put raw, nextSrc, bor (mskL 0x03 8)],
    [nextDst, put (mskR 0xFC 2), nextSrc, bor (mskL 0x0F 6)],
    [nextDst, put (mskR 0xF0 4), nextSrc, bor (mskL 0x3F 4)]]

/-- bytepacker.h:670-693 -/
def pack12 : Prog where
  group := 2
  body := [put (msk 0x0FF), nextDst, put (mskR 0xF00 8), nextSrc, bor (mskL 0x00F 4), nextDst,
    put (mskR 0xFF0 4), nextSrc, nextDst]
  tail := [[put (msk 0x0FF), nextDst, put (mskR 0xF00 8)]]

/-- bytepacker.h:695-716 -/
def unpack12 : Prog where
  group := 2
  body := [put raw, nextSrc, bor (mskL 0x0F 8), nextDst,
    put (mskR 0xF0 4), nextSrc, bor (mskL 0xFF 4), nextSrc, nextDst]
  tail := [[put raw, nextSrc, bor (mskL 0x0F 8)]]

/-- bytepacker.h:718-723. Simplification: the `uint16_t` store through a `reinterpret_cast` is
written as its two byte stores on a little-endian host; alignment/aliasing rules are ignored. -/
def pack16 : Prog where
  group := 1
  body := [put (msk 0xFF), nextDst, put (mskR 0xFF00 8), nextSrc, nextDst]
  tail := []

/-- bytepacker.h:725-730. Same simplification as `pack16`. -/
def unpack16 : Prog where
  group := 1
  body := [put raw, nextSrc, bor (rawL 8), nextSrc, nextDst]
  tail := []

/-- Outcome of the public entry points. bytepacker.h:153-218. -/
inductive Outcome (w : Nat) where
  /-- finished; new contents of the destination array -/
  | ok (m : Mem w)
  /-- `throw std::runtime_error`; contents of the destination array at that point -/
  | error (m : Mem w)
  /-- access outside one of the arrays -/
  | ub

/-- The `switch` of `BytePacker::pack`, bytepacker.h:156-183. -/
def packProg : Nat → Option Prog
  | 2 => some pack2
  | 3 => some pack3
  | 4 => some pack4
  | 6 => some pack6
  | 8 => some pack8
  | 10 => some pack10
  | 12 => some pack12
  | 16 => some pack16
  | _ => none

/-- The `switch` of `BytePacker::unpack`, bytepacker.h:190-217. -/
def unpackProg : Nat → Option Prog
  | 2 => some unpack2
  | 3 => some unpack3
  | 4 => some unpack4
  | 6 => some unpack6
  | 8 => some unpack8
  | 10 => some unpack10
  | 12 => some unpack12
  | 16 => some unpack16
  | _ => none

/-- `BytePacker::pack(bitCount, dest, symbolBuffer, symbolCount)`, bytepacker.h:153-184. -/
def pack (bitCount : Nat) (dest : Mem 8) (symbols : Mem 32) (n : Nat) : Outcome 8 :=
  match packProg bitCount with
  | none => .error dest
  | some p =>
    match p.run symbols dest n with
    | none => .ub
    | some m => .ok m

/-- `BytePacker::unpack(bitCount, symbolBuffer, packedBuffer, symbolCount)`,
bytepacker.h:186-218. -/
def unpack (bitCount : Nat) (symbols : Mem 32) (packed : Mem 8) (n : Nat) : Outcome 32 :=
  match unpackProg bitCount with
  | none => .error symbols
  | some p =>
    match p.run packed symbols n with
    | none => .ub
    | some m => .ok m

/-- `BytePacker::bufferSize`, bytepacker.h:148-150 (no 64-bit overflow). -/
def bufferSize (nSymbols nBits : Nat) : Nat := (nSymbols * nBits + 7) / 8

end Dysco.BytePacker
