import Verif.TwisterProps
import Verif.ColumnOrder

/-! # C141: the dither values of a column with a static seed -/

namespace Dysco.Twister
open Col

variable {V K : Type} {p : Params V K} {B : Type}

/-- `EncodeWithDithering` of a thread, dyscodatacolumn.cc:89-95: the block takes the next `n` dither values, one per symbol
(rowtimeblockencoder.cc:64-76, rftimeblockencoder.cc:90-102, aftimeblockencoder.cc:314-326). -/
def withGen (sample : Word → Nat) (n : Nat) (enc : (Nat → Nat) → List (Option V) → B) (g : Gen) (rows : List (Option V)) : B × Gen :=
  (enc (fun j => sample (output g j)) rows, step^[n] g)

theorem output_add (g : Gen) (a b : Nat) : output (step^[a] g) b = output g (a + b) := by
  unfold output
  rw [← Function.iterate_add_apply, Nat.add_comm]

theorem encodeAll_gen (sample : Word → Nat) (n : Nat) (enc : (Nat → Nat) → List (Option V) → B) (rows : Nat → List (Option V))
    (q : Nat) : ∀ (b0 : Nat) (g : Gen), encodeAll (withGen sample n enc) (step^[b0 * n] g)
      ((List.range' b0 q).map fun b => (b, rows b)) =
        (List.range' b0 q).map fun b => (b, enc (fun j => sample (output g (b * n + j))) (rows b)) := by
  induction q with
  | zero => intro b0 g; rfl
  | succ q ih =>
    intro b0 g
    have e : step^[n] (step^[b0 * n] g) = step^[(b0 + 1) * n] g := by
      rw [← Function.iterate_add_apply]
      congr 1
      ring
    simp only [List.range'_succ, List.map_cons, encodeAll]
    rw [show (withGen sample n enc (step^[b0 * n] g) (rows b0)).2 = step^[(b0 + 1) * n] g from e, ih (b0 + 1) g]
    simp only [withGen, output_add]

/-- **C141** A column with a static seed, whose rows are put in order and in whole blocks: under every schedule block `b` is
encoded with the dither values `b n`, `b n + 1`, … of the sequence with the seed 5489, where `n` is the number of symbols of a
block. So columns with the same rows have the same bytes. -/
theorem static_bytes (h1 : p.threads = threadCount false 0) {m q rows0 nBlocks : Nat} {v : Nat → V}
    {todo : List (Op V)} {k : K} {s : State V K p.threads} (hm : 0 < m) (hq : 0 < q) (hR : q * m ≤ noBlock)
    (hsame : ∀ r, 0 < r → r < m → p.differs (p.key r) (p.key 0) = false)
    (hdiff : m < q * m → p.differs (p.key m) (p.key 0) = true)
    (hrows : rows0 = m ∨ rows0 = 0 ∧ m < q * m) (hw : Whole m v (q * m) 0 todo)
    (h : Reachable p (initial p k rows0 (fun _ => none) nBlocks todo) s) (hcl : s.client = .closed)
    (sample : Word → Nat) (n : Nat) (enc : (Nat → Nat) → List (Option V) → B) (column : Gen) :
    bytes (withGen sample n enc) (threadGen false column).1 s =
      (List.range q).map fun b => (b, enc (fun j => sample (output (Twister.seeded 5489#32) (b * n + j)))
        ((List.range m).map fun j => some (v (b * m + j)))) := by
  rw [seeded_bytes h1 hm hq hR hsame hdiff hrows hw h hcl]
  have := encodeAll_gen sample n enc (fun b => (List.range m).map fun j => some (v (b * m + j))) q 0 (Twister.seeded 5489#32)
  simp only [Nat.zero_mul, Function.iterate_zero, id_eq, ← List.range_eq_range'] at this
  exact this

/-- Two blocks of two rows; each block takes two dither values. -/
example : ∃ s, Reachable demo (initial demo 0 0 (fun _ => none) 0
      [.put 0 20, .put 1 21, .put 2 22, .put 3 23, .close]) s ∧ s.client = .closed ∧
    bytes (withGen ditherHigh 2 fun d r => (d 0, d 1, r)) (threadGen false fun _ => 0#32).1 s =
      [(0, ditherHigh 3499211612#32, ditherHigh 581869302#32, [some 20, some 21]),
       (1, ditherHigh 3890346734#32, ditherHigh 3586334585#32, [some 22, some 23])] := by
  obtain ⟨s, hs, e⟩ := reachable_of_run (p := demo) (s0 := initial demo 0 0 (fun _ => none) 0
      [.put 0 20, .put 1 21, .put 2 22, .put 3 23, .close])
    (g := fun s => (isClosed s.client, s.writes.map fun x => (x.1, x.2.toList)))
    (ls := [c, c, c, c, c, c, c, c, t, t, t, t, t, t, t, c, t, c])
    (a := (true, [(0, [some 20, some 21]), (1, [some 22, some 23])])) (by decide +kernel)
  simp only [Prod.mk.injEq] at e
  refine ⟨s, hs, isClosed_iff.mp e.1, ?_⟩
  unfold bytes
  rw [e.2]
  decide +kernel

end Dysco.Twister
