import Mathlib.Data.List.Induction
import Verif.ColumnModel

/-!
# C149: the group of threads

`threadgroup` (threadgroup.h) is a vector of `std::thread`. Two mistakes are possible with such a vector: joining a thread that was
joined before raises an exception, and destroying a `std::thread` that was not joined ends the program.
-/

namespace Dysco.Threads

/-- The group and what happened to the threads of the program: `handles` is `_threads` (threadgroup.h:48), where `none` is a
`std::thread` without a thread; `made` counts the threads that were created and `joined` lists those that were waited for. -/
structure Group where
  handles : List (Option Nat) := []
  made : Nat := 0
  joined : List Nat := []
  deriving DecidableEq

/-- The outcome of a call. Not in the code: the exception of `std::thread::join` for a thread that cannot be joined, the exception of
the constructor of `std::thread` or of the allocation, and `std::terminate` by the destructor of a `std::thread` that was not joined. -/
inductive Outcome where
  | done
  | notCreated
  | notJoinable
  | terminated
  deriving DecidableEq

/-- `create_thread`, threadgroup.h:25-28. `ok` is false if there is no memory or the thread cannot be created; `emplace_back` then
leaves the vector as it was. -/
def Group.create (g : Group) (ok : Bool) : Group × Outcome :=
  if ok then ({ g with handles := g.handles ++ [some g.made], made := g.made + 1 }, .done) else (g, .notCreated)

/-- The loop of `join_all`, threadgroup.h:34-36: the handles before `rest` are done. `std::thread::join` empties the handle. -/
def joinLoop (done rest : List (Option Nat)) (joined : List Nat) : List (Option Nat) × List Nat × Outcome :=
  match rest with
  | [] => (done, joined, .done)
  | none :: rest => (done ++ none :: rest, joined, .notJoinable)
  | some t :: rest => joinLoop (done ++ [none]) rest (joined ++ [t])

/-- `_threads.clear()`, threadgroup.h:37, and the destructor of the vector: every handle is destroyed. -/
def clear (handles : List (Option Nat)) : List (Option Nat) × Outcome :=
  if handles.any Option.isSome then (handles, .terminated) else ([], .done)

/-- `join_all`, threadgroup.h:33-38. -/
def Group.joinAll (g : Group) : Group × Outcome :=
  match joinLoop [] g.handles g.joined with
  | (h, j, .done) => ({ g with handles := (clear h).1, joined := j }, (clear h).2)
  | (h, j, o) => ({ g with handles := h, joined := j }, o)

/-- The destructor, threadgroup.h:18, followed by that of the vector. -/
def Group.destroy (g : Group) : Group × Outcome :=
  match g.joinAll with
  | (g, .done) => ({ g with handles := (clear g.handles).1 }, (clear g.handles).2)
  | r => r

/-- `empty`, threadgroup.h:45. -/
def Group.empty (g : Group) : Bool := g.handles.isEmpty

/-- Calls on a group. -/
inductive Call where
  | create (ok : Bool)
  | joinAll
  deriving DecidableEq

/-- One call. threadgroup.h:25-38. -/
def Group.step (g : Group) : Call → Group × Outcome
  | .create ok => g.create ok
  | .joinAll => g.joinAll

/-- Calls in order, with the outcomes. Not in the code. -/
def Group.run (g : Group) : List Call → Group × List Outcome
  | [] => (g, [])
  | c :: cs => let r := g.step c; let r' := r.1.run cs; (r'.1, r.2 :: r'.2)

/-- How many threads were created after the last `joinAll` of these calls. Not in the code. -/
def pending (cs : List Call) : Nat := ((cs.reverse.takeWhile (· ≠ .joinAll)).filter (· = .create true)).length

/-- The loop of `join_all` with handles that can all be joined. -/
theorem joinLoop_some (done : List (Option Nat)) (ts joined : List Nat) :
    joinLoop done (ts.map some) joined = (done ++ ts.map fun _ => none, joined ++ ts, .done) := by
  induction ts generalizing done joined with
  | nil => simp [joinLoop]
  | cons t ts ih => simp [joinLoop, ih]

/-- The handles are those of the threads from `k` on, and all threads before were waited for, each once and in order. -/
def Good (g : Group) (k : Nat) : Prop :=
  k ≤ g.made ∧ g.joined = List.range k ∧ g.handles = (List.range' k (g.made - k)).map some

theorem joinAll_good {g : Group} {k : Nat} (h : Good g k) :
    g.joinAll = (⟨[], g.made, List.range g.made⟩, .done) := by
  obtain ⟨h1, h2, h3⟩ := h
  have e : List.range k ++ List.range' k (g.made - k) = List.range g.made := by
    have := List.range'_append_1 (s := 0) (m := k) (n := g.made - k)
    rw [Nat.zero_add, Nat.add_sub_cancel' h1] at this
    rw [List.range_eq_range', List.range_eq_range', this]
  unfold Group.joinAll
  rw [h3, h2, joinLoop_some, e]
  simp [clear]

theorem run_append (g : Group) (cs cs' : List Call) :
    g.run (cs ++ cs') = (((g.run cs).1.run cs').1, (g.run cs).2 ++ ((g.run cs).1.run cs').2) := by
  induction cs generalizing g with
  | nil => rfl
  | cons c cs ih => simp [Group.run, ih]

/-- **C149**: whatever calls are made, and whichever threads could not be created, every thread that was created is waited for exactly
once: at the next `join_all`, or when the group is destroyed. No call fails but those that could not create a thread, a `join_all` or
destruction never meets a thread that it cannot join, and no thread that was not joined is destroyed. -/
theorem group_spec (cs : List Call) :
    let g := (({} : Group).run cs).1
    (({} : Group).run cs).2 = cs.map (fun c => if c = .create false then .notCreated else .done) ∧
    g.made = cs.count (.create true) ∧ pending cs ≤ g.made ∧ g.joined = List.range (g.made - pending cs) ∧
    g.empty = decide (pending cs = 0) ∧ g.destroy = (⟨[], g.made, List.range g.made⟩, .done) := by
  suffices h : (({} : Group).run cs).2 = cs.map (fun c => if c = .create false then .notCreated else .done) ∧
      (({} : Group).run cs).1.made = cs.count (.create true) ∧ pending cs ≤ (({} : Group).run cs).1.made ∧
      Good (({} : Group).run cs).1 ((({} : Group).run cs).1.made - pending cs) by
    obtain ⟨h1, h2, h3, h4⟩ := h
    refine ⟨h1, h2, h3, h4.2.1, ?_, ?_⟩
    · unfold Group.empty
      rw [h4.2.2, Nat.sub_sub_self h3]
      cases pending cs <;> simp [List.range'_succ]
    · unfold Group.destroy
      rw [joinAll_good h4]
      rfl
  induction cs using List.reverseRecOn with
  | nil => exact ⟨rfl, rfl, Nat.le_refl _, by simp [Good, Group.run, pending]⟩
  | append_singleton cs c ih =>
    obtain ⟨h1, h2, h3, h4⟩ := ih
    rw [run_append]
    generalize hg : (({} : Group).run cs).1 = g at *
    cases c with
    | create b =>
      cases b with
      | false =>
        have hp : pending (cs ++ [.create false]) = pending cs := by simp [pending]
        rw [hp]
        refine ⟨by simp [h1, Group.run, Group.step, Group.create], ?_, h3, h4⟩
        simp [Group.run, Group.step, Group.create, h2, List.count_append]
      | true =>
        have hp : pending (cs ++ [.create true]) = pending cs + 1 := by simp [pending]
        rw [hp]
        simp only [Group.run, Group.step, Group.create, if_true]
        refine ⟨by simp [h1], by simp [h2, List.count_append], by omega, ?_⟩
        obtain ⟨-, g2, g3⟩ := h4
        rw [Nat.add_sub_add_right]
        refine ⟨le_trans (Nat.sub_le _ _) (Nat.le_succ _), g2, ?_⟩
        rw [Nat.sub_sub_self h3] at g3
        have e : g.made + 1 - (g.made - pending cs) = pending cs + 1 := by omega
        simp only [g3, e]
        rw [List.range'_concat, List.map_append, Nat.one_mul, Nat.sub_add_cancel h3]
        rfl
    | joinAll =>
      have hp : pending (cs ++ [.joinAll]) = 0 := by simp [pending]
      rw [hp]
      simp only [Group.run, Group.step, joinAll_good h4]
      refine ⟨by simp [h1], by simp [h2, List.count_append], Nat.zero_le _, Nat.le_refl _, rfl, ?_⟩
      simp

/-- Starting the threads of a column (threadeddyscocolumn.cc:251, 264-268) after whatever was done before: the test `empty` of
`stopThreads` (53) then tells whether threads were started, as `started` does in the model of the column. -/
theorem start_spec {V K : Type} {n : Nat} (cs : List Call) (s : Col.State V K n) :
    (({} : Group).run (cs ++ .joinAll :: List.replicate n (.create true))).1.empty = !s.start.started := by
  have hp : pending (cs ++ .joinAll :: List.replicate n (.create true)) = n := by
    unfold pending
    rw [List.reverse_append, List.reverse_cons, List.reverse_replicate, List.append_assoc,
      List.takeWhile_append_of_pos (by simp)]
    simp
  rw [(group_spec _).2.2.2.2.1, hp]
  cases n <;> rfl

/-- Two threads, a third that cannot be created, a `join_all`, and one more thread that is joined by the destructor. -/
example : ({} : Group).run [.create true, .create true, .create false, .joinAll, .create true] =
      (⟨[some 2], 3, [0, 1]⟩, [.done, .done, .notCreated, .done, .done]) ∧
    (⟨[some 2], 3, [0, 1]⟩ : Group).destroy = (⟨[], 3, [0, 1, 2]⟩, .done) := by decide

end Dysco.Threads
