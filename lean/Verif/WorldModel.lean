import Verif.MultiProps
import Verif.EndModel
import Verif.ReopenProps

/-!
# The columns, their threads and the bytes of the file

`MultiModel` has the columns and their threads, with the rows of each block in place of the file. `StManModel` has
the manager with the bytes of the file. Here they are one program: every step of a thread or the client also does what
the code does to the file.

- an encoder thread at `encodeAndWrite` encodes its rows, with any random numbers and any old contents of its
  buffers, and writes the bytes (threadeddyscocolumn.cc:272-294)
- the client in `loadBlock` reads the block, if it exists (79-104); the rows that this gives for a block that the
  column did not write are any rows, as in `MultiModel`
- `initializeRowsPerBlock` lays out the columns and writes the header (dyscostman.cc:260-283). The columns are laid
  out in one step, with the header; `header_alone` shows that no thread has a block in the meantime.

A run exists for every choice that the code may make, but a step of an encoder exists only if the encoder returns.
-/

namespace Dysco.World
open Col Multi StMan End BytePacker Layout

variable {κ : Type} {c : Nat} {α : Fin c → Type}

/-- The columns and the manager. threadeddyscocolumn.h:208-227, dyscostman.h:386-404. -/
structure WState (P : (i : Fin c) → Params (DataRow (α i)) κ) where
  cols : MState P
  man : Man

variable {P : (i : Fin c) → Params (DataRow (α i)) κ}

/-- The antennas of the rows of a buffer, timeblockbuffer.h:49-56; a row that was never set has antennas 0. -/
def antennas {β : Type} (rows : Rows (DataRow β)) : Block Unit :=
  ⟨rows.len, fun j => match rows.get j with
    | some r => ⟨r.antenna1, r.antenna2, ⟨0, fun _ => ()⟩⟩
    | none => ⟨0, 0, ⟨0, fun _ => ()⟩⟩⟩

/-- The codec of column `i`, given the rows per block and the column. threadeddyscocolumn.h:133-144. -/
abbrev Codecs (α : Fin c → Type) := (i : Fin c) → Nat → Column → Codec (α i)

/-- What a step does to the manager and its file. -/
def Effect (K : Codecs α) (S : MState P) (l : MLabel P) (m m' : Man) : Prop :=
  match l with
  | .thread i t =>
    match (S.cols i).threads t with
    | .encode b r => ∃ col d, m.columns[i.val]? = some col ∧
      Encodes (K i m.rowsPerBlock col) col m.rowsPerBlock r d ∧ m' = blockStep m (.write b i d)
    | _ => m' = m
  | .client _ =>
    match S.pc with
    | .header i _ _ =>
      -- threadeddyscocolumn.cc:201
      ∃ a, TimeBlock.maxAntennaIndex (antennas (S.cols i).buffer) = some a ∧
        m' = (initializeRowsPerBlock S.rowsPerBlock (a + 1) true m).1
    | .call i =>
      match (S.cols i).client with
      | .load k => ∃ dest, m' = blockStep m (.read (k.row / S.rowsPerBlock) i dest)
      | _ => m' = m
    | _ => m' = m
  | _ => m' = m

/-- One step. Interleaving of threadeddyscocolumn.cc:38-336. -/
def WStep (K : Codecs α) (w : WState P) (l : MLabel P) (w' : WState P) : Prop :=
  mstep w.cols l = some w'.cols ∧ Effect K w.cols l w.man w'.man

/-- States that some schedule reaches; not in the code. -/
inductive WReach (K : Codecs α) (w0 : WState P) : WState P → Prop
  | start : WReach K w0 w0
  | step {w w' : WState P} {l : MLabel P} : WReach K w0 w → WStep K w l w' → WReach K w0 w'

/-- A new table with the columns and settings of `mt`: `create` and `prepare` were called.
dyscostman.cc:167-176, 351-376. -/
def winitial (P : (i : Fin c) → Params (DataRow (α i)) κ) (k : κ) (nRow : Nat) (mt : Man)
    (prog : List (MOp fun i => DataRow (α i))) : WState P :=
  ⟨minitial P k 0 (fun _ _ => none) 0 prog, (prepare (create nRow mt)).1⟩

end Dysco.World
