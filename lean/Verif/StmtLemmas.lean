import Verif.StmtModel

/-!
# Lemmas for `StmtProps`

`SState.abs F t` is the state of `ColumnModel` that belongs to `F`: statements that change shared variables are where the
step of `ColumnModel` is made, and what the client does later in the same step is done already. `t` are the places of
the threads.
-/

namespace Dysco.Stmt
open Col
variable {V K : Type} {n : Nat} {p : Params V K}

/-! ## Who has the mutex -/

/-- The thread has the mutex. Not in the code. -/
def TPC.holds : TPC V → Bool
  | .test | .scan _ _ | .missing _ | .skip | .found _ _ | .unlock _ | .erase _ | .notify => true
  | _ => false

/-- The client has the mutex. Not in the code. -/
def CPC.holds : CPC V → Bool
  | .storeMove _ | .storeTest _ _ | .storeInsert _ _ | .storeNotify _ | .storeUnlock _ | .getTest _ | .getUnlock _
  | .stopTest _ | .stopLoop _ | .stopSet _ | .stopNotify _ | .stopUnlock _ => true
  | _ => false

/-- The next statement is `notify_all`. -/
def TPC.isNotify : TPC V → Bool
  | .notify => true
  | _ => false

/-- The next statement of the client is `notify_all`. Not in the code. -/
def CPC.isNotify : CPC V → Bool
  | .storeNotify _ | .stopNotify _ => true
  | _ => false

/-- The threads that wait are about to be woken. -/
def SState.pend (F : SState V K n) : Bool :=
  match F.mutex with
  | none => false
  | some none => F.client.isNotify
  | some (some i) => (F.threads i).isNotify

/-- The client, if it waits, is about to be woken. -/
def SState.pendC (F : SState V K n) : Bool :=
  match F.mutex with
  | some (some i) => (F.threads i).isNotify
  | _ => false

/-! ## The state of `ColumnModel` -/

/-- The place of the client in `ColumnModel`. -/
def CPC.abs : CPC V → ClientPC V
  | .idle => .idle
  | .storeLock k | .storeMove k | .storeTest k _ | .storeWoken k _ | .storeInsert k _ => .store k
  | .storeWait k _ => .storeWait k
  | .storeNotify k | .storeUnlock k | .storeReset k => k.pc
  | .getLock row | .getTest row | .getWoken row | .getUnlock row | .getAccess row => .getLock row
  | .getWait row => .getWait row
  | .load k => .load k
  | .stopLock prep | .stopTest prep | .stopLoop prep | .stopWoken prep | .stopSet prep =>
    if prep then .prepLock else .stopLock
  | .stopWait prep => if prep then .prepWait else .stopWait
  | .stopNotify prep | .stopUnlock prep | .join prep => if prep then .prepJoin else .join
  | .closed => .closed
  | .failed => .failed
  | .prepStart => .prepStart
  | .unsupported => .unsupported

/-- The buffer, also while it is in `item`. -/
def CPC.buf (b : Rows V) : CPC V → Rows V
  | .storeTest _ item | .storeWait _ item | .storeWoken _ item | .storeInsert _ item => item
  | .storeNotify _ | .storeUnlock _ | .storeReset _ => Rows.empty
  | _ => b

/-- `_isCurrentBlockChanged` as the step of `ColumnModel` leaves it. Not in the code. -/
def CPC.chg (c : Bool) : CPC V → Bool
  | .storeNotify _ | .storeUnlock _ | .storeReset _ => false
  | _ => c

/-- The state of `ColumnModel`. Not in the code. -/
def SState.abs (F : SState V K n) (t : Fin n → ThreadPC V) : State V K n :=
  { F.d with
    client := if F.pendC then F.client.abs.wake else F.client.abs
    threads := t
    buffer := F.client.buf F.d.buffer
    changed := F.client.chg F.d.changed }

/-- The place of a thread in `ColumnModel`; `pend`: those that wait are about to be woken. -/
def TR (pend : Bool) : TPC V → ThreadPC V → Prop
  | .lock, pc | .test, pc | .scan false _, pc | .missing false, pc | .found false _, pc | .notify, pc => pc = .head
  | .scan true _, pc | .missing true, pc | .found true _, pc | .woken, pc | .skip, pc => pc = .woken
  | .wait, pc => pc = if pend then .woken else .wait
  | .unlock b, pc | .encode b, pc => ∃ rows, pc = .encode b rows
  | .write b rows, pc => pc = .encode b rows
  | .relock b, pc | .erase b, pc => pc = .written b
  | .done, pc => pc = .done
  | .dangling, _ => False

/-- The places of the threads are related to those of `ColumnModel`. Not in the code. -/
def Thr (F : SState V K n) (t : Fin n → ThreadPC V) : Prop := ∀ i, TR F.pend (F.threads i) (t i)

/-! ## The invariant -/

/-- What a thread knows while it has the mutex. -/
def TOK (c : Cache V) (stop : Bool) : TPC V → Prop
  | .scan again k => (again = false → stop = false) ∧ k ≤ c.length ∧ ∀ x ∈ List.take k c, x.2.writing = true
  | .missing again => (again = false → stop = false) ∧ c.available = none
  | .skip => stop = true ∧ c.available = none
  | .found again b => (again = false → stop = false) ∧ ∃ it, c.available = some (b, it)
  | _ => True

/-- What the client knows. -/
def COK (p : Params V K) (d : State V K n) : CPC V → Prop
  | .storeMove _ | .storeTest _ _ | .storeWait _ _ | .storeWoken _ _ => d.current ≠ noBlock
  | .storeInsert _ _ => d.current ≠ noBlock ∧ ¬ (p.maxCache ≤ d.cache.length ∨ d.cache.has d.current = true)
  | .getUnlock row | .getAccess row => d.cache.has (row / d.rowsPerBlock) = false
  | .stopLoop _ | .stopWait _ | .stopWoken _ => d.started = true
  | .stopSet _ => d.started = true ∧ d.cache = []
  | _ => True

/-- The invariant of the statements. Not in the code. -/
structure OK (p : Params V K) (F : SState V K n) : Prop where
  mt : ∀ i, (F.threads i).holds = true ↔ F.mutex = some (some i)
  mc : F.client.holds = true ↔ F.mutex = some none
  tok : ∀ i, TOK F.d.cache F.d.stop (F.threads i)
  cok : COK p F.d F.client

theorem tok_free {c : Cache V} {stop : Bool} {pc : TPC V} (h : pc.holds = false) : TOK c stop pc := by
  cases pc <;> trivial

/-! ## Statements until the next step of `ColumnModel` -/

/-- Statements of a thread that are left until the next step of `ColumnModel`. Not in the code. -/
def TPC.rank (M : Nat) : TPC V → Nat
  | .done | .dangling => 0
  | .skip | .write _ _ | .erase _ | .found _ _ => 1
  | .missing _ | .encode _ | .relock _ => 2
  | .unlock _ => 3
  | .scan _ k => M - k + 3
  | .test => M + 4
  | .lock | .woken | .wait | .notify => M + 5

/-- Statements of the client that are left until the next step of `ColumnModel`. Not in the code. -/
def CPC.rank : CPC V → Nat
  | .storeNotify _ => 6
  | .storeUnlock _ => 5
  | .storeReset _ | .getLock _ | .getWait _ | .getWoken _ => 4
  | .storeLock _ | .getTest _ | .stopLock _ | .stopWait _ | .stopWoken _ => 3
  | .storeMove _ | .storeWait _ _ | .storeWoken _ _ | .getUnlock _ | .stopTest _ | .stopNotify _ => 2
  | .storeTest _ _ | .getAccess _ | .stopLoop _ | .stopUnlock _ => 1
  | _ => 0

/-- A bound for the number of statements before the next step of `ColumnModel`. -/
def SState.rank (M : Nat) (F : SState V K n) : Nat := ∑ i, (F.threads i).rank M + F.client.rank

theorem trank_le (M : Nat) (pc : TPC V) : pc.rank M ≤ M + 5 := by
  cases pc <;> simp only [TPC.rank] <;> omega

theorem rank_le (M : Nat) (F : SState V K n) : F.rank M ≤ n * (M + 5) + 6 := by
  have h1 : ∑ i, (F.threads i).rank M ≤ ∑ _i : Fin n, (M + 5) := Finset.sum_le_sum fun i _ => trank_le M _
  rw [Finset.sum_const, Finset.card_univ, Fintype.card_fin, smul_eq_mul] at h1
  have h2 : F.client.rank ≤ 6 := by cases F.client <;> simp [CPC.rank]
  unfold SState.rank
  omega

theorem rank_setT {M : Nat} {F F' : SState V K n} {i : Fin n} {pc : TPC V}
    (ht : F'.threads = Function.update F.threads i pc) (hc : F'.client = F.client)
    (h : pc.rank M < (F.threads i).rank M) : F'.rank M < F.rank M := by
  unfold SState.rank
  rw [ht, hc]
  refine Nat.add_lt_add_right (Finset.sum_lt_sum (fun j _ => ?_) ⟨i, Finset.mem_univ i, ?_⟩) _
  · by_cases hj : j = i
    · subst hj; rw [Function.update_self]; exact h.le
    · rw [Function.update_of_ne hj]
  · rw [Function.update_self]; exact h

theorem rank_wake (M : Nat) (pc : TPC V) : pc.wake.rank M = pc.rank M := by cases pc <;> rfl

theorem crank_wake (pc : CPC V) : pc.wake.rank = pc.rank := by cases pc <;> rfl

/-! ## Steps of the threads -/

theorem pend_none {F : SState V K n} (h : F.mutex = none) : F.pend = false ∧ F.pendC = false := by
  unfold SState.pend SState.pendC
  rw [h]
  exact ⟨rfl, rfl⟩

theorem pend_thread {F : SState V K n} {i : Fin n} (h : F.mutex = some (some i)) :
    F.pend = (F.threads i).isNotify ∧ F.pendC = (F.threads i).isNotify := by
  unfold SState.pend SState.pendC
  rw [h]
  exact ⟨rfl, rfl⟩

theorem pend_client {F : SState V K n} (h : F.mutex = some none) :
    F.pend = F.client.isNotify ∧ F.pendC = false := by
  unfold SState.pend SState.pendC
  rw [h]
  exact ⟨rfl, rfl⟩

section thread
variable {F F' : SState V K n} {i : Fin n} {pc : TPC V} {t : Fin n → ThreadPC V}

/-- A thread that does not take or release the mutex. -/
theorem mt_keep (h : OK p F) (ht : F'.threads = Function.update F.threads i pc) (hm : F'.mutex = F.mutex)
    (hp : pc.holds = (F.threads i).holds) : ∀ j, (F'.threads j).holds = true ↔ F'.mutex = some (some j) := by
  intro j
  rw [ht, hm]
  by_cases hj : j = i
  · subst hj; rw [Function.update_self, hp]; exact h.mt j
  · rw [Function.update_of_ne hj]; exact h.mt j

theorem mt_acquire (h : OK p F) (ht : F'.threads = Function.update F.threads i pc) (h0 : F.mutex = none)
    (hm : F'.mutex = some (some i)) (hp : pc.holds = true) :
    ∀ j, (F'.threads j).holds = true ↔ F'.mutex = some (some j) := by
  intro j
  rw [ht, hm]
  by_cases hj : j = i
  · subst hj; rw [Function.update_self, hp]; simp
  · rw [Function.update_of_ne hj, h.mt j, h0]
    have : i ≠ j := fun e => hj e.symm
    simp [this]

theorem mt_release (h : OK p F) (ht : F'.threads = Function.update F.threads i pc) (h0 : F.mutex = some (some i))
    (hm : F'.mutex = none) (hp : pc.holds = false) :
    ∀ j, (F'.threads j).holds = true ↔ F'.mutex = some (some j) := by
  intro j
  rw [ht, hm]
  by_cases hj : j = i
  · subst hj; rw [Function.update_self, hp]; simp
  · rw [Function.update_of_ne hj, h.mt j, h0]
    have : i ≠ j := fun e => hj e.symm
    simp [this]

theorem mc_of (h : OK p F) (hc : F'.client = F.client) (h1 : F'.mutex = F.mutex ∨ F.mutex ≠ some none ∧ F'.mutex ≠ some none) :
    F'.client.holds = true ↔ F'.mutex = some none := by
  rw [hc, h.mc]
  rcases h1 with h1 | ⟨h1, h2⟩
  · rw [h1]
  · simp [h1, h2]

/-- The variables do not change. -/
theorem tok_of (h : OK p F) (ht : F'.threads = Function.update F.threads i pc) (hd : F'.d.cache = F.d.cache)
    (hs : F'.d.stop = F.d.stop) (hp : TOK F.d.cache F.d.stop pc) : ∀ j, TOK F'.d.cache F'.d.stop (F'.threads j) := by
  intro j
  rw [ht, hd, hs]
  by_cases hj : j = i
  · subst hj; rw [Function.update_self]; exact hp
  · rw [Function.update_of_ne hj]; exact h.tok j

/-- Others do not have the mutex. -/
theorem tok_others (h : OK p F) (ht : F'.threads = Function.update F.threads i pc) (hm : F.mutex = some (some i))
    (hp : TOK F'.d.cache F'.d.stop pc) : ∀ j, TOK F'.d.cache F'.d.stop (F'.threads j) := by
  intro j
  rw [ht]
  by_cases hj : j = i
  · subst hj; rw [Function.update_self]; exact hp
  · rw [Function.update_of_ne hj]
    refine tok_free ?_
    cases e : (F.threads j).holds with
    | false => rfl
    | true =>
      have := (h.mt j).mp e
      rw [hm] at this
      injection this with this
      injection this with this
      exact absurd this.symm hj

/-- The places of the others stay. -/
theorem thr_of (h : Thr F t) (ht : F'.threads = Function.update F.threads i pc) (hp : F'.pend = F.pend)
    {c : ThreadPC V} (hi : TR F.pend pc c) : Thr F' (Function.update t i c) := by
  intro j
  rw [ht, hp]
  by_cases hj : j = i
  · subst hj; rw [Function.update_self, Function.update_self]; exact hi
  · rw [Function.update_of_ne hj, Function.update_of_ne hj]; exact h j

theorem thr_same (h : Thr F t) (ht : F'.threads = Function.update F.threads i pc) (hp : F'.pend = F.pend)
    (hi : TR F.pend pc (t i)) : Thr F' t := by
  have := thr_of h ht hp hi
  rwa [Function.update_eq_self] at this

end thread

/-- What a statement is in `ColumnModel`: nothing yet, or a step of the same. -/
def Sim (p : Params V K) (F F' : SState V K p.threads) (t : Fin p.threads → ThreadPC V) (l : Label V p.threads) : Prop :=
  (F'.abs t = F.abs t ∧ Thr F' t ∧
    F'.rank p.maxCache + (if l.real then 1 else 0) ≤ F.rank p.maxCache) ∨
  ∃ t', step p (F.abs t) l = some (F'.abs t') ∧ Thr F' t'

end Dysco.Stmt
