import Verif.ColumnLemmas
import Mathlib.Algebra.BigOperators.Fin
import Mathlib.Algebra.Order.BigOperators.Group.Finset
import Mathlib.Data.List.Count
import Mathlib.Tactic.Ring

/-!
# Properties of the write cache

All theorems are about every schedule: any list of labels, so any interleaving of the client and the encoder
threads, any spurious wake-up, and any growth of the file by other columns.

The examples are at the end of `ColumnReads.lean`.
-/

namespace Dysco.Col
variable {V K : Type} {n : Nat} {p : Params V K}

/-- The blocks in the file when the column is opened. -/
def fileAt (rows : Nat) (file : Nat → Option (Rows V)) : Nat → Option (Rows V) :=
  if rows = 0 then fun _ => none else file

theorem initial_reachable_inv (hn : 0 < p.threads) {k : K} {rows nBlocks : Nat}
    {file : Nat → Option (Rows V)} {todo : List (Op V)} {s : State V K p.threads}
    (h : Reachable p (initial p k rows file nBlocks todo) s) : Inv p (fileAt rows file) s :=
  reachable_inv hn (initial_inv hn k rows file nBlocks todo) h

/-! ## C43 -/

/-- The cache never exceeds its limit and has one entry per block, and two threads never work on the same
block. -/
theorem cache_bounded (hn : 0 < p.threads) {k : K} {rows nBlocks : Nat}
    {file : Nat → Option (Rows V)} {todo : List (Op V)} {s : State V K p.threads}
    (h : Reachable p (initial p k rows file nBlocks todo) s) :
    s.cache.length ≤ p.maxCache ∧ (s.cache.map (·.1)).Nodup ∧
      ∀ i j b r r', s.threads i = .encode b r → s.threads j = .encode b r' → i = j := by
  have hi := (initial_reachable_inv hn h).core
  exact ⟨hi.size, hi.keys, fun i j b r r' h1 h2 => hi.one i j b (Or.inl ⟨r, h1⟩) (Or.inl ⟨r', h2⟩)⟩

/-- A thread only works on blocks that are in the cache, marked as being written. -/
theorem encoding_in_cache (hn : 0 < p.threads) {k : K} {rows nBlocks : Nat}
    {file : Nat → Option (Rows V)} {todo : List (Op V)} {s : State V K p.threads}
    (h : Reachable p (initial p k rows file nBlocks todo) s) {i : Fin p.threads} {b : Nat} {r : Rows V}
    (hi : s.threads i = .encode b r) : (b, ⟨r, true⟩) ∈ s.cache :=
  (initial_reachable_inv hn h).core.encoding i b r hi

/-! ## C44 -/

/-- The writes of a block are its stores in the same order, except that the last store may still be
pending, in which case it is in the cache. -/
theorem stores_written (hn : 0 < p.threads) {k : K} {rows nBlocks : Nat}
    {file : Nat → Option (Rows V)} {todo : List (Op V)} {s : State V K p.threads}
    (h : Reachable p (initial p k rows file nBlocks todo) s) (b : Nat) :
    ofBlock s.stores b = ofBlock s.writes b ∨
      ∃ it, (b, it) ∈ s.cache ∧ ofBlock s.stores b = ofBlock s.writes b ++ [it.rows] := by
  have hi := (initial_reachable_inv hn h).core
  cases hb : s.cache.has b with
  | false => exact Or.inl (hi.settled b (Or.inl hb))
  | true =>
    obtain ⟨it, hit⟩ := (has_iff _ _).mp hb
    by_cases hw : ∃ i, s.threads i = .written b
    · exact Or.inl (hi.settled b (Or.inr hw))
    · push Not at hw
      exact Or.inr ⟨it, hit, hi.pending b it hit hw⟩

theorem count_ofBlock [DecidableEq (Nat × Rows V)] [DecidableEq (Rows V)] (l : List (Nat × Rows V)) (b : Nat)
    (r : Rows V) : l.count (b, r) = (ofBlock l b).count r := by
  induction l with
  | nil => rfl
  | cons x l ih =>
    obtain ⟨b', r'⟩ := x
    unfold ofBlock at ih ⊢
    rw [List.count_cons, ih]
    by_cases hb : b' = b
    · subst hb
      by_cases hr : r' = r
      · subst hr; simp
      · simp [hr]
    · simp [hb]

theorem perm_of_ofBlock {l l' : List (Nat × Rows V)} (h : ∀ b, ofBlock l b = ofBlock l' b) : l.Perm l' := by
  classical
  rw [List.perm_iff_count]
  rintro ⟨b, r⟩
  rw [count_ofBlock, count_ofBlock, h b]

/-- When the cache is empty, the blocks that were written are the blocks that were stored, each as often,
and the file holds for every block its last store. -/
theorem drained (hn : 0 < p.threads) {k : K} {rows nBlocks : Nat}
    {file : Nat → Option (Rows V)} {todo : List (Op V)} {s : State V K p.threads}
    (h : Reachable p (initial p k rows file nBlocks todo) s) (hc : s.cache = []) :
    s.writes.Perm s.stores ∧ ∀ b, ofBlock s.writes b = ofBlock s.stores b ∧
      s.file b = ((ofBlock s.stores b).getLast?).or (fileAt rows file b) := by
  have hi := (initial_reachable_inv hn h).core
  have hs : ∀ b, ofBlock s.stores b = ofBlock s.writes b :=
    fun b => hi.settled b (Or.inl (by rw [hc]; rfl))
  exact ⟨perm_of_ofBlock fun b => (hs b).symm, fun b => ⟨(hs b).symm, by rw [hs b]; exact hi.file b⟩⟩

/-! ## C46 -/

/-- After closing, the cache is empty, every stored block has been written, and all threads have
ended. -/
theorem closed_drained (hn : 0 < p.threads) {k : K} {rows nBlocks : Nat}
    {file : Nat → Option (Rows V)} {todo : List (Op V)} {s : State V K p.threads}
    (h : Reachable p (initial p k rows file nBlocks todo) s) (hc : s.client = .closed) :
    s.cache = [] ∧ (∀ i, s.threads i = .done) ∧ s.writes.Perm s.stores ∧
      ∀ b, s.file b = ((ofBlock s.stores b).getLast?).or (fileAt rows file b) := by
  have hi := initial_reachable_inv hn h
  have hcl := hi.client
  unfold ClientOK at hcl
  rw [hc] at hcl
  have hd := drained hn h hcl.2.2
  exact ⟨hcl.2.2, hi.core.idle hcl.2.1, hd.1, fun b => (hd.2 b).2⟩

/-- A started thread only ends when it was told to, and then no block is in the cache. -/
theorem ends_only_when_drained (hn : 0 < p.threads) {k : K} {rows nBlocks : Nat}
    {file : Nat → Option (Rows V)} {todo : List (Op V)} {s : State V K p.threads}
    (h : Reachable p (initial p k rows file nBlocks todo) s) (hs : s.started = true) {i : Fin p.threads}
    (hi : s.threads i = .done) : s.stop = true ∧ s.cache = [] := by
  have hc := (initial_reachable_inv hn h).core
  rcases hc.ended i hi with h1 | h1
  · exact ⟨h1, hc.stopped h1⟩
  · rw [hs] at h1; cases h1

/-! ## C45: no deadlock -/

/-- The program does not add columns. -/
def Op.noAdd : Op V → Bool
  | .addColumn => false
  | _ => true

/-- The client is not in `Prepare`. Not in the code. -/
def ClientPC.noPrep : ClientPC V → Bool
  | .prepStart | .prepLock | .prepWait | .prepJoin => false
  | _ => true

/-- No column is added, now or later. Not in the code. -/
structure NoAdd (s : State V K n) : Prop where
  todo : ∀ op ∈ s.todo, op.noAdd = true
  pc : s.client.noPrep = true

theorem noAdd_access {s : State V K n} (h : ∀ op ∈ s.todo, op.noAdd = true) (k : Next V) : NoAdd (s.access k) := by
  unfold State.access
  split
  · split <;> exact ⟨h, rfl⟩
  · cases k <;> exact ⟨h, rfl⟩

theorem noAdd_call {s : State V K n} (h : NoAdd s) {op : Op V} (ho : op.noAdd = true) : NoAdd (State.call p s op) := by
  cases op with
  | put row v =>
    simp only [State.call]
    unfold State.put
    split
    · exact noAdd_access h.todo _
    · split
      · exact ⟨h.todo, h.pc⟩
      · split
        · split
          · exact ⟨h.todo, rfl⟩
          · split
            · exact ⟨h.todo, rfl⟩
            · exact noAdd_access (s := ({ s with rowsPerBlock := row } : State V K n).start) h.todo _
        · exact ⟨h.todo, h.pc⟩
  | get row =>
    simp only [State.call]
    unfold State.get
    split
    · exact ⟨h.todo, h.pc⟩
    · split
      · exact ⟨h.todo, h.pc⟩
      · exact ⟨h.todo, rfl⟩
  | close =>
    simp only [State.call]
    split <;> exact ⟨h.todo, rfl⟩
  | addColumn => cases ho
  | otherInit rows =>
    simp only [State.call]
    split
    · exact h
    · split
      · exact ⟨h.todo, rfl⟩
      · split
        · exact ⟨h.todo, rfl⟩
        · exact ⟨h.todo, h.pc⟩

theorem noPrep_wake {pc : ClientPC V} (h : pc.noPrep = true) : pc.wake.noPrep = true := by
  cases pc <;> first | rfl | cases h

theorem noAdd_step {s s' : State V K p.threads} (h : NoAdd s) {l : Label V p.threads}
    (e : step p s l = some s') : NoAdd s' := by
  have hpc0 := h.pc
  cases l with
  | client junk =>
    simp only [step] at e
    unfold clientStep at e
    cases hpc : s.client with
    | idle =>
      simp only [hpc] at e
      cases ht : s.todo with
      | nil => rw [ht] at e; cases e
      | cons op rest =>
        rw [ht] at e
        injection e with e
        subst e
        have h1 := h.todo
        rw [ht] at h1
        exact noAdd_call ⟨fun o ho => h1 o (List.mem_cons_of_mem _ ho), rfl⟩ (h1 op (List.mem_cons_self))
    | store k =>
      simp only [hpc] at e
      injection e with e
      subst e
      unfold State.storeBlock
      split
      · exact ⟨h.todo, rfl⟩
      · split
        · exact ⟨h.todo, rfl⟩
        · cases k <;> exact ⟨h.todo, rfl⟩
    | getLock row =>
      simp only [hpc] at e
      split at e
      · injection e with e
        subst e
        exact ⟨h.todo, rfl⟩
      · injection e with e
        rw [← e]
        exact noAdd_access h.todo _
    | load k =>
      simp only [hpc] at e
      injection e with e
      subst e
      cases k <;> exact ⟨h.todo, rfl⟩
    | stopLock =>
      simp only [hpc] at e
      split at e
      · split at e <;> (injection e with e; subst e; exact ⟨h.todo, rfl⟩)
      · split at e <;> (injection e with e; subst e; exact ⟨h.todo, rfl⟩)
    | join =>
      simp only [hpc] at e
      split at e
      · injection e with e; subst e; exact ⟨h.todo, rfl⟩
      · cases e
    | prepStart => rw [hpc] at hpc0; cases hpc0
    | prepLock => rw [hpc] at hpc0; cases hpc0
    | prepJoin => rw [hpc] at hpc0; cases hpc0
    | prepWait => rw [hpc] at hpc0; cases hpc0
    | storeWait k => simp only [hpc] at e; cases e
    | getWait row => simp only [hpc] at e; cases e
    | stopWait => simp only [hpc] at e; cases e
    | closed => simp only [hpc] at e; cases e
    | failed => simp only [hpc] at e; cases e
    | unsupported => simp only [hpc] at e; cases e
  | thread i =>
    simp only [step] at e
    have hseek : NoAdd (s.seek i) := by
      unfold State.seek
      split <;> exact ⟨h.todo, h.pc⟩
    unfold threadStep at e
    cases ht : s.threads i with
    | head =>
      simp only [ht] at e
      split at e
      · injection e with e; subst e; exact ⟨h.todo, h.pc⟩
      · injection e with e; subst e; exact hseek
    | woken =>
      simp only [ht] at e
      injection e with e; subst e; exact hseek
    | encode b r =>
      simp only [ht] at e
      split at e
      · cases e
      · injection e with e; subst e; exact ⟨h.todo, h.pc⟩
    | written b =>
      simp only [ht] at e
      injection e with e; subst e; exact ⟨h.todo, noPrep_wake h.pc⟩
    | wait => simp only [ht] at e; cases e
    | done => simp only [ht] at e; cases e
  | spuriousThread i => injection e with e; subst e; exact ⟨h.todo, h.pc⟩
  | spuriousClient => injection e with e; subst e; exact ⟨h.todo, noPrep_wake h.pc⟩
  | others m =>
    simp only [step] at e
    split at e
    · cases e
    · injection e with e; subst e; exact ⟨h.todo, h.pc⟩

/-- All work is done: the program has ended, and the threads have ended or wait with an empty cache. -/
def Finished (s : State V K n) : Prop :=
  (s.client = .closed ∨ s.client = .failed ∨ s.client = .unsupported ∨ s.client = .idle ∧ s.todo = []) ∧
    (s.started = true → s.cache = [] ∧ ∀ i, s.threads i = .wait) ∧
    (s.started = false → ∀ i, s.threads i = .done)

theorem no_deadlock_of_inv {f : Nat → Option (Rows V)} {s : State V K p.threads} (hn : 0 < p.threads)
    (hm : 1 ≤ p.maxCache) (junk : Nat → V) (h : Inv p f s) (ha : NoAdd s)
    (hc : step p s (.client junk) = none) (ht : ∀ i, step p s (.thread i) = none) : Finished s := by
  have hcl := h.client
  have hpc0 := ha.pc
  have hlock : s.locked = false := by
    unfold ClientOK at hcl
    match hpc : s.client with
    | .idle | .prepStart | .store .stop => simp only [hpc] at hcl; exact hcl.2.1
    | .load _ | .getLock _ | .store (.load _) => simp only [hpc] at hcl; exact hcl.1.2.1
    | .storeWait .stop => simp only [hpc] at hcl; exact hcl.1.2.1
    | .storeWait (.load _) => simp only [hpc] at hcl; exact hcl.1.2.1
    | .getWait row => simp only [hpc] at hcl; exact hcl.1.2.1
    | .stopLock => simp only [hpc] at hcl; exact hcl.2
    | .stopWait => simp only [hpc] at hcl; exact hcl.2.1
    | .join => simp only [hpc] at hcl; exact hcl.2.1
    | .closed => simp only [hpc] at hcl; exact hcl.1
    | .failed => simp only [hpc] at hcl; exact hcl.2.1
    | .unsupported => simp only [hpc] at hcl; exact hcl.2
    | .prepLock | .prepWait | .prepJoin => rw [hpc] at hpc0; cases hpc0
  have hrest : ∀ i, s.threads i = .wait ∨ s.threads i = .done := by
    intro i
    have hti := ht i
    simp only [step] at hti
    unfold threadStep at hti
    cases hi : s.threads i with
    | wait => exact Or.inl rfl
    | done => exact Or.inr rfl
    | head => simp only [hi] at hti; split at hti <;> cases hti
    | woken => simp only [hi] at hti; cases hti
    | encode b r =>
      simp only [hi] at hti
      rw [hlock] at hti
      simp at hti
    | written b => simp only [hi] at hti; cases hti
  have hwr : ∀ x ∈ s.cache, x.2.writing = false := by
    rintro ⟨b, it⟩ hx
    cases hw : it.writing with
    | false => rfl
    | true =>
      obtain ⟨i, hi⟩ := h.core.owner b it hx hw
      unfold ThreadPC.on at hi
      rcases hrest i with h1 | h1 <;> rw [h1] at hi <;> simp at hi
  have hempty : s.started = true → s.stop = false → s.cache = [] ∧ ∀ i, s.threads i = .wait := by
    intro hs hst
    have hw : ∀ i, s.threads i = .wait := by
      intro i
      rcases hrest i with h1 | h1
      · exact h1
      · rcases h.core.ended i h1 with h2 | h2
        · rw [hst] at h2; cases h2
        · rw [hs] at h2; cases h2
    refine ⟨?_, hw⟩
    by_contra hne
    obtain ⟨x, hx⟩ := List.exists_mem_of_ne_nil _ hne
    exact h.core.awake ⟨x, hx, hwr x hx⟩ ⟨0, hn⟩ (hw ⟨0, hn⟩)
  have hnocache : ∀ b, s.cache = [] → ¬ (p.maxCache ≤ s.cache.length ∨ s.cache.has b = true) := by
    intro b he hx
    rw [he] at hx
    rcases hx with hx | hx
    · simp at hx; omega
    · cases hx
  have hcalm : Calm s → s.cache = [] := by
    intro hcm
    cases hs : s.started with
    | false => exact (hcm.2.2 hs).1
    | true => exact (hempty hs hcm.1).1
  have hfin : (s.client = .closed ∨ s.client = .failed ∨ s.client = .unsupported ∨ s.client = .idle ∧ s.todo = []) →
      (s.started = true → s.stop = false) → Finished s :=
    fun h1 h2 => ⟨h1, fun hs => hempty hs (h2 hs), h.core.idle⟩
  unfold ClientOK at hcl
  simp only [step] at hc
  unfold clientStep at hc
  match hpc : s.client with
  | .idle =>
    simp only [hpc] at hc hcl
    cases htd : s.todo with
    | nil => exact hfin (Or.inr (Or.inr (Or.inr ⟨hpc, htd⟩))) (fun _ => hcl.1)
    | cons op rest => rw [htd] at hc; cases hc
  | .store k => simp only [hpc] at hc; cases hc
  | .getLock row => simp only [hpc] at hc; split at hc <;> cases hc
  | .load k => simp only [hpc] at hc; cases hc
  | .stopLock => simp only [hpc] at hc; split at hc <;> split at hc <;> cases hc
  | .join =>
    simp only [hpc] at hc hcl
    have : ∀ i, (s.threads i).isDone = true := by
      intro i
      rcases hrest i with h1 | h1
      · exact absurd h1 (h.core.awakeStop hcl.1 i)
      · rw [h1]; rfl
    rw [if_pos this] at hc
    cases hc
  | .storeWait (.load k) =>
    simp only [hpc] at hcl
    exact absurd hcl.2.2 (hnocache _ (hcalm hcl.1))
  | .storeWait .stop =>
    simp only [hpc] at hcl
    exact absurd hcl.2 (hnocache _ (hcalm hcl.1))
  | .getWait row =>
    simp only [hpc] at hcl
    have := hcalm hcl.1
    rw [this] at hcl
    cases hcl.2.2
  | .stopWait =>
    simp only [hpc] at hcl
    exact absurd (hempty hcl.2.2.1 hcl.1).1 hcl.2.2.2
  | .closed =>
    simp only [hpc] at hcl
    exact hfin (Or.inl hpc) (fun hs => by rw [hcl.2.1] at hs; cases hs)
  | .failed =>
    simp only [hpc] at hcl
    exact hfin (Or.inr (Or.inl hpc)) (fun _ => hcl.1)
  | .unsupported =>
    simp only [hpc] at hcl
    exact hfin (Or.inr (Or.inr (Or.inl hpc))) (fun _ => hcl.1)
  | .prepStart | .prepLock | .prepWait | .prepJoin => rw [hpc] at hpc0; cases hpc0

theorem initial_noAdd {k : K} {rows nBlocks : Nat} {file : Nat → Option (Rows V)} {todo : List (Op V)}
    (h : ∀ op ∈ todo, op.noAdd = true) : NoAdd (initial p k rows file nBlocks todo) := ⟨h, rfl⟩

/-- In a program that adds no columns, whenever neither the client nor any thread can make a step, all work
is done. -/
theorem no_deadlock (hn : 0 < p.threads) (hm : 1 ≤ p.maxCache) {k : K} {rows nBlocks : Nat}
    {file : Nat → Option (Rows V)} {todo : List (Op V)} {s : State V K p.threads}
    (ha : ∀ op ∈ todo, op.noAdd = true) (h : Reachable p (initial p k rows file nBlocks todo) s)
    (junk : Nat → V) (hc : step p s (.client junk) = none) (ht : ∀ i, step p s (.thread i) = none) :
    Finished s := by
  obtain ⟨ls, e⟩ := h
  exact no_deadlock_of_inv hn hm junk (initial_reachable_inv hn ⟨ls, e⟩)
    (run_induct (P := NoAdd) (fun s l s' hs he => noAdd_step hs he) (initial_noAdd ha) e) hc ht

/-! ### Termination -/

/-- Upper bound of the steps of a thread until it waits. Not in the code. -/
def ThreadPC.rank (n : Nat) : ThreadPC V → Nat
  | .wait | .done => 0
  | .head | .woken => 1
  | .written _ => n + 3
  | .encode _ _ => n + 4

/-- Upper bound of the steps of the client until the next operation. Not in the code. -/
def ClientPC.rank (n : Nat) : ClientPC V → Nat
  | .idle | .closed | .failed | .unsupported => 0
  | .load _ | .join => 1
  | .stopWait => n + 1
  | .stopLock => n + 2
  | .storeWait _ => 3 * n + 7
  | .store _ => 3 * n + 8
  | .getWait _ => 3 * n + 9
  | .getLock _ => 3 * n + 10
  | .prepJoin => n + 1
  | .prepWait => 2 * n + 2
  | .prepLock => 2 * n + 3
  | .prepStart => 2 * n + 4

/-- Blocks in the cache that no thread has taken yet. -/
def waiting (c : Cache V) : Nat := c.countP fun x => !x.2.writing

/-- A bound for the number of steps that are still possible without spurious wake-ups. -/
def work (s : State V K n) : Nat :=
  (4 * n + 11) * s.todo.length + s.client.rank n + (n + 4) * waiting s.cache + ∑ i, (s.threads i).rank n

theorem rank_wake (pc : ThreadPC V) : pc.wake.rank n ≤ pc.rank n + 1 := by
  cases pc <;> simp [ThreadPC.wake, ThreadPC.rank]

theorem sum_wake (t : Fin n → ThreadPC V) : ∑ i, ((t i).wake).rank n ≤ ∑ i, (t i).rank n + n := by
  calc ∑ i, ((t i).wake).rank n ≤ ∑ i, ((t i).rank n + 1) := Finset.sum_le_sum fun i _ => rank_wake _
    _ = _ := by rw [Finset.sum_add_distrib]; simp

theorem sum_update (t : Fin n → ThreadPC V) (i : Fin n) (pc : ThreadPC V) :
    ∑ j, (Function.update t i pc j).rank n + (t i).rank n = ∑ j, (t j).rank n + pc.rank n := by
  rw [← Finset.add_sum_erase _ _ (Finset.mem_univ i),
    ← Finset.add_sum_erase Finset.univ (fun j => (t j).rank n) (Finset.mem_univ i)]
  have : ∀ j ∈ Finset.univ.erase i, (Function.update t i pc j).rank n = (t j).rank n := by
    intro j hj
    rw [Function.update_of_ne (Finset.ne_of_mem_erase hj)]
  rw [Finset.sum_congr rfl this, Function.update_self]
  omega

theorem sum_update_eq {t : Fin n → ThreadPC V} {i : Fin n} {pc : ThreadPC V} {a c : Nat} (h0 : (t i).rank n = a)
    (h1 : pc.rank n = c) : ∑ j, (Function.update t i pc j).rank n + a = ∑ j, (t j).rank n + c := by
  rw [← h0, ← h1]
  exact sum_update t i pc

theorem client_wake_rank (pc : ClientPC V) : pc.wake.rank n ≤ pc.rank n + 1 := by
  cases pc <;> simp [ClientPC.wake, ClientPC.rank]

theorem waiting_insert (c : Cache V) (b : Nat) (r : Rows V) : waiting (c.insert b r) = waiting c + 1 := by
  unfold waiting
  rw [(insert_perm c b r).countP_eq]
  simp

theorem waiting_remove (c : Cache V) (b : Nat) : waiting (c.remove b) ≤ waiting c :=
  List.filter_sublist.countP_le

theorem waiting_take_le (c : Cache V) (b : Nat) : waiting (c.take b) ≤ waiting c := by
  unfold waiting Cache.take
  induction c with
  | nil => simp
  | cons x c ih =>
    rw [List.map_cons, List.countP_cons, List.countP_cons]
    split
    · simp only [Bool.not_true, Bool.false_eq_true, if_false]
      omega
    · omega

theorem waiting_take {c : Cache V} {b : Nat} {it : Item V} (h : (b, it) ∈ c) (hw : it.writing = false) :
    waiting (c.take b) + 1 ≤ waiting c := by
  induction c with
  | nil => cases h
  | cons x c ih =>
    have hle := waiting_take_le c b
    unfold waiting Cache.take at hle ih ⊢
    rw [List.map_cons, List.countP_cons, List.countP_cons]
    rcases List.mem_cons.mp h with h | h
    · subst h
      simp only [if_true, hw, Bool.not_true, Bool.not_false, Bool.false_eq_true, if_false]
      omega
    · have := ih h
      split
      · simp only [Bool.not_true, Bool.false_eq_true, if_false]
        omega
      · omega

theorem seek_work {s : State V K n} {i : Fin n} (h : (s.threads i).rank n = 1) : work (s.seek i) < work s := by
  unfold State.seek
  cases ha : s.cache.available with
  | some x =>
    obtain ⟨b, it⟩ := x
    obtain ⟨h1, h2⟩ := available_some ha
    have h3 := waiting_take h1 h2
    have h4 := sum_update s.threads i (.encode b it.rows)
    have h5 : (n + 4) * waiting (s.cache.take b) + (n + 4) ≤ (n + 4) * waiting s.cache := by
      calc _ = (n + 4) * (waiting (s.cache.take b) + 1) := by ring
        _ ≤ _ := Nat.mul_le_mul_left _ h3
    simp only [work]
    have h6 : (ThreadPC.encode b it.rows : ThreadPC V).rank n = n + 4 := rfl
    rw [h6, h] at h4
    omega
  | none =>
    have h4 := sum_update s.threads i (if s.stop then .done else .wait)
    have h6 : (if s.stop then .done else .wait : ThreadPC V).rank n = 0 := by split <;> rfl
    rw [h6, h] at h4
    simp only [work]
    omega

theorem thread_work {s s' : State V K n} {i : Fin n} (e : threadStep s i = some s') : work s' < work s := by
  unfold threadStep at e
  cases hi : s.threads i with
  | head =>
    simp only [hi] at e
    split at e
    · injection e with e
      subst e
      have h4 := sum_update_eq (t := s.threads) (pc := .done) (a := 1) (c := 0) (by rw [hi]; rfl) rfl
      simp only [work]
      omega
    · injection e with e
      subst e
      exact seek_work (by rw [hi]; rfl)
  | woken =>
    simp only [hi] at e
    injection e with e
    subst e
    exact seek_work (by rw [hi]; rfl)
  | encode b r =>
    simp only [hi] at e
    split at e
    · cases e
    · injection e with e
      subst e
      have h4 := sum_update_eq (t := s.threads) (pc := (.written b)) (a := n + 4) (c := n + 3) (by rw [hi]; rfl) rfl
      simp only [work]
      omega
  | written b =>
    simp only [hi] at e
    injection e with e
    subst e
    have h4 := sum_update_eq (t := s.threads) (pc := .head) (a := n + 3) (c := 1) (by rw [hi]; rfl) rfl
    have h5 := sum_wake (Function.update s.threads i .head)
    have h6 := client_wake_rank (n := n) s.client
    have h7 : (n + 4) * waiting (s.cache.remove b) ≤ (n + 4) * waiting s.cache :=
      Nat.mul_le_mul_left _ (waiting_remove _ _)
    simp only [work, State.notify]
    omega
  | wait => simp only [hi] at e; cases e
  | done => simp only [hi] at e; cases e

theorem access_work (s : State V K n) (k : Next V) :
    work (s.access k) ≤ work s + (3 * n + 8) := by
  unfold State.access
  split
  · split <;> simp only [work, ClientPC.rank] <;> omega
  · cases k <;> simp only [work, ClientPC.rank, State.finish] <;> omega

theorem start_work (s : State V K n) : work s.start ≤ work s + n := by
  have h : ∑ i, (s.start.threads i).rank n = n := by simp [State.start, ThreadPC.rank]
  have h2 : work s.start = (4 * n + 11) * s.todo.length + s.client.rank n + (n + 4) * waiting s.cache + n := by
    unfold work
    rw [h]
    rfl
  rw [h2]
  unfold work
  omega

theorem call_work (s : State V K n) (op : Op V) (hid : s.client.rank n = 0) :
    work (State.call p s op) ≤ work s + (4 * n + 10) := by
  have same : ∀ s' : State V K n, s'.todo = s.todo → s'.client.rank n ≤ 3 * n + 10 → s'.cache = s.cache →
      s'.threads = s.threads → work s' ≤ work s + (4 * n + 10) := by
    intro s' h1 h2 h3 h4
    unfold work
    rw [h1, h3, h4]
    omega
  cases op with
  | put row v =>
    simp only [State.call]
    unfold State.put
    split
    · exact (access_work s _).trans (by omega)
    · split
      · exact same _ rfl (by show s.client.rank n ≤ _; omega) rfl rfl
      · split
        · split
          · exact same _ rfl (Nat.zero_le _) rfl rfl
          · split
            · exact same _ rfl (Nat.zero_le _) rfl rfl
            · have h1 := access_work (({ s with rowsPerBlock := row } : State V K n).start) (.put row v)
              have h2 := start_work ({ s with rowsPerBlock := row } : State V K n)
              have h3 : work ({ s with rowsPerBlock := row } : State V K n) = work s := rfl
              omega
        · exact same _ rfl (by show s.client.rank n ≤ _; omega) rfl rfl
  | get row =>
    simp only [State.call]
    unfold State.get
    split
    · exact same _ rfl (by show s.client.rank n ≤ _; omega) rfl rfl
    · split
      · exact same _ rfl (by show s.client.rank n ≤ _; omega) rfl rfl
      · exact same _ rfl (by simp only [ClientPC.rank]; omega) rfl rfl
  | close =>
    simp only [State.call]
    split
    · exact same _ rfl (by simp only [ClientPC.rank]; omega) rfl rfl
    · exact same _ rfl (by simp only [ClientPC.rank]; omega) rfl rfl
  | addColumn =>
    simp only [State.call]
    split
    · omega
    · exact same _ rfl (by simp only [ClientPC.rank]; omega) rfl rfl
  | otherInit rows =>
    simp only [State.call]
    split
    · omega
    · split
      · exact same _ rfl (Nat.zero_le _) rfl rfl
      · split
        · exact same _ rfl (Nat.zero_le _) rfl rfl
        · have h2 := start_work ({ s with rowsPerBlock := rows } : State V K n)
          have h3 : work ({ s with rowsPerBlock := rows } : State V K n) = work s := rfl
          omega

theorem client_work {s s' : State V K n} {junk : Nat → V} (e : clientStep p s junk = some s') :
    work s' < work s := by
  unfold clientStep at e
  cases hpc : s.client with
  | idle =>
    simp only [hpc] at e
    cases ht : s.todo with
    | nil => rw [ht] at e; cases e
    | cons op rest =>
      rw [ht] at e
      injection e with e
      subst e
      have h1 := call_work (p := p) ({ s with client := .idle, todo := rest } : State V K n) op rfl
      have h2 : work s = work ({ s with client := .idle, todo := rest } : State V K n) + (4 * n + 11) := by
        simp only [work, ht, hpc, List.length_cons]
        ring
      rw [h2]
      exact lt_of_le_of_lt h1 (by omega)
  | store k =>
    simp only [hpc] at e
    injection e with e
    subst e
    unfold State.storeBlock
    split
    · simp only [work, hpc, ClientPC.rank]; omega
    · split
      · simp only [work, hpc, ClientPC.rank]; omega
      · have h1 := sum_wake s.threads
        have h2 := waiting_insert s.cache s.current s.buffer
        have h3 : (k.pc : ClientPC V).rank n ≤ n + 2 := by
          cases k <;> simp [After.pc, ClientPC.rank]
        simp only [work, hpc, h2]
        have h4 : (ClientPC.store k : ClientPC V).rank n = 3 * n + 8 := rfl
        rw [h4]
        have h5 : (n + 4) * (waiting s.cache + 1) = (n + 4) * waiting s.cache + (n + 4) := by ring
        rw [h5]
        omega
  | getLock row =>
    simp only [hpc] at e
    split at e
    · injection e with e
      subst e
      simp only [work, hpc, ClientPC.rank]; omega
    · injection e with e
      have h1 := access_work ({ s with client := .idle } : State V K n) (.get row)
      have h2 : work s = work ({ s with client := .idle } : State V K n) + (3 * n + 10) := by
        simp only [work, hpc, ClientPC.rank]
        omega
      have h3 : work s' = work (({ s with client := .idle } : State V K n).access (.get row)) := by
        rw [← e]
        have hfin : ∀ k : Next V, ({ s with client := .idle } : State V K n).finish k = s.finish k := by
          intro k; cases k <;> rfl
        unfold State.access
        simp only [hfin]
      omega
  | load k =>
    simp only [hpc] at e
    injection e with e
    subst e
    cases k <;> simp only [State.finish, State.loadBlock, work, hpc, ClientPC.rank] <;> omega
  | stopLock =>
    simp only [hpc] at e
    split at e
    · split at e <;> (injection e with e; subst e; simp only [work, hpc, ClientPC.rank]; omega)
    · split at e
      · injection e with e; subst e; simp only [work, hpc, ClientPC.rank]; omega
      · injection e with e
        subst e
        have h1 := sum_wake s.threads
        simp only [work, hpc, ClientPC.rank]
        omega
  | join =>
    simp only [hpc] at e
    split at e
    · injection e with e; subst e; simp only [work, hpc, ClientPC.rank]; omega
    · cases e
  | prepStart =>
    simp only [hpc] at e
    injection e with e; subst e; simp only [work, hpc, ClientPC.rank]; omega
  | prepLock =>
    simp only [hpc] at e
    split at e
    · split at e <;> (injection e with e; subst e; simp only [work, hpc, ClientPC.rank]; omega)
    · split at e
      · injection e with e; subst e; simp only [work, hpc, ClientPC.rank]; omega
      · injection e with e
        subst e
        have h1 := sum_wake s.threads
        simp only [work, hpc, ClientPC.rank]
        omega
  | prepJoin =>
    simp only [hpc] at e
    split at e
    · injection e with e
      have h1 := start_work
        ({ s with started := false, buffer := Rows.empty, current := noBlock, locked := false, client := .idle } :
          State V K n)
      have h2 : work s = work
        ({ s with started := false, buffer := Rows.empty, current := noBlock, locked := false, client := .idle } :
          State V K n) + (n + 1) := by
        simp only [work, hpc, ClientPC.rank]
        omega
      split at e
      · subst e
        omega
      · subst e
        omega
    · cases e
  | prepWait => simp only [hpc] at e; cases e
  | storeWait k => simp only [hpc] at e; cases e
  | getWait row => simp only [hpc] at e; cases e
  | stopWait => simp only [hpc] at e; cases e
  | closed => simp only [hpc] at e; cases e
  | failed => simp only [hpc] at e; cases e
  | unsupported => simp only [hpc] at e; cases e

/-- A step of the client or of a thread that is not a spurious wake-up. -/
def Label.real {n : Nat} : Label V n → Bool
  | .client _ | .thread _ => true
  | _ => false

/-- A spurious wake-up. -/
def Label.spurious {n : Nat} : Label V n → Bool
  | .spuriousThread _ | .spuriousClient => true
  | _ => false

theorem step_work {s s' : State V K p.threads} {l : Label V p.threads} (e : step p s l = some s') :
    work s' + (if l.real then 1 else 0) ≤ work s + (if l.spurious then 1 else 0) := by
  cases l with
  | client junk =>
    have := client_work e
    simp only [Label.real, Label.spurious, if_true, Bool.false_eq_true, if_false]
    omega
  | thread i =>
    have := thread_work e
    simp only [Label.real, Label.spurious, if_true, Bool.false_eq_true, if_false]
    omega
  | spuriousThread i =>
    injection e with e
    subst e
    have h1 := sum_update s.threads i (s.threads i).wake
    have h2 := rank_wake (n := p.threads) (s.threads i)
    simp only [Label.real, Label.spurious, if_true, Bool.false_eq_true, if_false, work]
    omega
  | spuriousClient =>
    injection e with e
    subst e
    have h2 := client_wake_rank (n := p.threads) s.client
    simp only [Label.real, Label.spurious, if_true, Bool.false_eq_true, if_false, work]
    omega
  | others m =>
    simp only [step] at e
    split at e
    · cases e
    · injection e with e
      subst e
      simp only [Label.real, Label.spurious, Bool.false_eq_true, if_false, work]
      omega

/-- Along every schedule, the number of steps of the client and the threads is bounded by the work of the
program plus the number of spurious wake-ups. -/
theorem steps_bounded {s s' : State V K p.threads} {ls : List (Label V p.threads)} (e : run p s ls = some s') :
    ls.countP (·.real) + work s' ≤ work s + ls.countP (·.spurious) := by
  induction ls generalizing s with
  | nil => injection e with e; subst e; simp
  | cons l ls ih =>
    simp only [run] at e
    cases h1 : step p s l with
    | none => rw [h1] at e; cases e
    | some s1 =>
      rw [h1] at e
      have h2 := ih e
      have h3 := step_work h1
      rw [List.countP_cons, List.countP_cons]
      omega

/-- From every reachable state of a program that adds no columns, steps of the client and the threads alone
lead to a state in which all work is done. -/
theorem can_finish (hn : 0 < p.threads) (hm : 1 ≤ p.maxCache) {k : K} {rows nBlocks : Nat}
    {file : Nat → Option (Rows V)} {todo : List (Op V)} {s : State V K p.threads}
    (ha : ∀ op ∈ todo, op.noAdd = true) (h : Reachable p (initial p k rows file nBlocks todo) s)
    (junk : Nat → V) :
    ∃ ls s', (∀ l ∈ ls, Label.real l = true) ∧ run p s ls = some s' ∧ Finished s' := by
  obtain ⟨ls0, e0⟩ := h
  have hi := initial_reachable_inv hn ⟨ls0, e0⟩
  have hna := run_induct (P := NoAdd) (fun s l s' hs he => noAdd_step hs he) (initial_noAdd ha) e0
  clear e0
  induction hw : work s using Nat.strong_induction_on generalizing s with
  | _ w ih =>
    have go : ∀ l s1, Label.real l = true → step p s l = some s1 →
        ∃ ls s', (∀ l ∈ ls, Label.real l = true) ∧ run p s ls = some s' ∧ Finished s' := by
      intro l s1 hl h1
      have hlt : work s1 < w := by
        have := step_work h1
        cases l <;> simp only [Label.real, Label.spurious, if_true, Bool.false_eq_true, if_false] at this hl
        · omega
        · omega
      obtain ⟨ls, s', h2, h3, h4⟩ := ih _ hlt (step_inv hi hn h1) (noAdd_step hna h1) rfl
      refine ⟨l :: ls, s', ?_, ?_, h4⟩
      · intro l' hl'
        rcases List.mem_cons.mp hl' with rfl | hl'
        · exact hl
        · exact h2 l' hl'
      · simp only [run, h1]
        exact h3
    cases hc : step p s (.client junk) with
    | some s1 => exact go _ s1 rfl hc
    | none =>
      by_cases ht : ∃ i, step p s (.thread i) ≠ none
      · obtain ⟨i, hi'⟩ := ht
        obtain ⟨s1, h1⟩ := Option.ne_none_iff_exists'.mp hi'
        exact go _ s1 rfl h1
      · push Not at ht
        exact ⟨[], s, by simp, rfl, no_deadlock_of_inv hn hm junk hi hna hc ht⟩

end Dysco.Col
