import Verif.RaceProps

/-!
# `loadBlock` in two steps

`loadBlock` takes the mutex of the manager twice: `nBlocksInFile` tells whether the block is in the file, and
`readCompressedData` reads it (threadeddyscocolumn.cc:79-80, dyscostman.h:239-242, dyscostman.cc:412-429). In
`MultiModel` this is one step. Here it is two, and the encoder threads of all columns may run in between. No other step
of the model takes a mutex more than once.
-/

namespace Dysco.Multi
open Col Race
variable {K : Type} {c : Nat} {W : Fin c → Type} {P : (i : Fin c) → Params (W i) K}

/-- `loadBlock` (threadeddyscocolumn.cc:79-104) after the test, which had the result `found`. -/
def readBlock {V : Type} {n : Nat} (p : Params V K) (s : State V K n) (b : Nat) (junk : Nat → V) (found : Bool) :
    State V K n :=
  { s with
    current := b
    changed := false
    buffer := if found then
        match s.file b with
        | some r => p.dec b (s.timesWritten b) r
        | none => ⟨s.rowsPerBlock, fun i => if i < s.rowsPerBlock then some (junk i) else none⟩
      else s.buffer }

/-- The state, and the result of the test while the client is between the two steps of `loadBlock`.
threadeddyscocolumn.cc:80-81. -/
structure FState (P : (i : Fin c) → Params (W i) K) where
  S : MState P
  found : Option Bool

/-- What the client loads: column and call. threadeddyscocolumn.cc:134, 211. -/
def MState.loading (S : MState P) : Option ((i : Fin c) × Next (W i)) :=
  match S.pc with
  | .call i => match (S.cols i).client with
    | .load k => some ⟨i, k⟩
    | _ => none
  | _ => none

/-- A step of the client: the two parts of `loadBlock`, or a step as before. threadeddyscocolumn.cc:79-104. -/
def FState.client (F : FState P) (junk : (i : Fin c) → Nat → W i) : Option (FState P) :=
  match F.S.loading, F.found with
  | some ⟨_, k⟩, none => some { F with found := some (decide (k.row / F.S.rowsPerBlock < F.S.nBlocks)) }
  | some ⟨i, k⟩, some found =>
    some ⟨F.S.enter i ((readBlock (P i) (F.S.view i) (k.row / F.S.rowsPerBlock) (junk i) found).finish k), none⟩
  | none, _ => (F.S.client junk).map fun S => ⟨S, none⟩

/-- Interleaving of threadeddyscocolumn.cc:38-336. -/
def fstep (F : FState P) : MLabel P → Option (FState P)
  | .client junk => F.client junk
  | .thread i t => (mstep F.S (.thread i t)).map fun S => ⟨S, F.found⟩
  | .spuriousThread i t => (mstep F.S (.spuriousThread i t)).map fun S => ⟨S, F.found⟩
  | .spuriousClient i => (mstep F.S (.spuriousClient i)).map fun S => ⟨S, F.found⟩

/-- A run along a schedule. Schedules; not in the code. -/
def frun (F : FState P) : List (MLabel P) → Option (FState P)
  | [] => some F
  | l :: ls => (fstep F l).bind fun F' => frun F' ls

/-- The accesses of the test. threadeddyscocolumn.cc:80. -/
def testActs (P : (i : Fin c) → Params (W i) K) : List (MAct P) := [.acquire none, .read .nBlocks, .release none]

/-- The accesses of the rest of `loadBlock` and of the call. threadeddyscocolumn.cc:81-104, 139, 213-217. -/
def restActs (P : (i : Fin c) → Params (W i) K) (i : Fin c) {V : Type} {n : Nat} (s : State V K n) : List (MAct P) :=
  [.read .rows, .read (.config i), .write (.mine i),
    .acquire none, .read .layout, .read (.config i), .write .stream, .read .nBlocks, .release none,
    .write (curObj i s)] ++ finishActs P i s

/-- What the step with this label does. The accesses of threadeddyscocolumn.cc:38-336. -/
def fevents (F : FState P) (l : MLabel P) : List (MEv P) :=
  match l, F.S.loading, F.found with
  | .client _, some _, none => (testActs P).map fun a => ⟨none, a⟩
  | .client _, some ⟨i, _⟩, some _ => (restActs P i (F.S.view i)).map fun a => ⟨none, a⟩
  | l, _, _ => events F.S l

/-- All events along a schedule. Schedules; not in the code. -/
def ftrace (F : FState P) : List (MLabel P) → List (MEv P)
  | [] => []
  | l :: ls => fevents F l ++ match fstep F l with
    | some F' => ftrace F' ls
    | none => []

end Dysco.Multi
