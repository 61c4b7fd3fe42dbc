import Verif.ColumnUpdate

/-!
# Calls after `shutdown`

`shutdown` (threadeddyscocolumn.cc:38-42, with `stopThreads`, 50-71, and `join_all`, threadgroup.h:33-38) is called by the
destructor of the manager (dyscostman.cc:111-119), by that of the derived column (dyscodatacolumn.h:37,
dyscoweightcolumn.h:31) and by that of the base class (threadeddyscocolumn.cc:45-47).

`closed_sample` and `closed_sample_reads`, at the end, are the examples.
-/

namespace Dysco.Col

variable {V K : Type} {n : Nat} {p : Params V K}

/-- `shutdown` has returned, and there are more calls. -/
def State.again (s : State V K n) (ops : List (Op V)) : State V K n := { s with client := .idle, todo := ops }

/-- The client is in `stopThreads`, called from `shutdown`, or beyond. -/
def ClientPC.stopping : ClientPC V → Bool
  | .stopLock | .stopWait | .join | .closed => true
  | _ => false

theorem stopping_wake (c : ClientPC V) : c.wake.stopping = c.stopping := by cases c <;> rfl

theorem access_stopping (s : State V K n) (k : Next V) : (s.access k).client.stopping = false := by
  unfold State.access
  split
  · split <;> rfl
  · cases k <;> rfl

theorem call_stopping {s : State V K n} (hid : s.client = .idle) (op : Op V) :
    (State.call p s op).client.stopping = true → (State.call p s op).changed = false := by
  intro h
  cases op with
  | put row v =>
    simp only [State.call, State.put] at h
    split at h
    · rw [access_stopping] at h; cases h
    · split at h
      · simp only [hid] at h; cases h
      · split at h
        · split at h
          · cases h
          · split at h
            · cases h
            · rw [access_stopping] at h; cases h
        · simp only [hid] at h; cases h
  | get row =>
    simp only [State.call, State.get] at h
    split at h
    · simp only [hid] at h; cases h
    · split at h
      · simp only [hid] at h; cases h
      · cases h
  | close =>
    simp only [State.call] at h ⊢
    split at h
    · cases h
    · rename_i hx
      rw [if_neg hx]
      simpa using hx
  | addColumn =>
    simp only [State.call] at h
    split at h
    · rw [hid] at h; cases h
    · cases h
  | otherInit r =>
    simp only [State.call] at h
    split at h
    · rw [hid] at h; cases h
    · split at h
      · cases h
      · split at h
        · cases h
        · simp only [State.start, hid] at h; cases h

theorem client_stopping {s s' : State V K n} {junk : Nat → V} (h : s.client.stopping = true → s.changed = false)
    (e : clientStep p s junk = some s') : s'.client.stopping = true → s'.changed = false := by
  unfold clientStep at e
  cases hpc : s.client with
  | idle =>
    simp only [hpc] at e
    cases ht : s.todo with
    | nil => rw [ht] at e; cases e
    | cons op rest =>
      rw [ht] at e
      injection e with e
      subst e
      exact call_stopping rfl op
  | store k =>
    simp only [hpc] at e
    injection e with e
    subst e
    unfold State.storeBlock
    split
    · intro h; cases h
    · split
      · intro h; cases h
      · intro _; rfl
  | getLock row =>
    simp only [hpc] at e
    split at e
    · injection e with e; subst e; intro h; cases h
    · injection e with e
      rw [← e, access_stopping]
      intro h; cases h
  | load k =>
    simp only [hpc] at e
    injection e with e
    subst e
    cases k <;> (intro h; cases h)
  | stopLock =>
    have hc := h (by rw [hpc]; rfl)
    simp only [hpc] at e
    split at e
    · split at e <;> (injection e with e; subst e; intro _; exact hc)
    · split at e <;> (injection e with e; subst e; intro _; exact hc)
  | join =>
    have hc := h (by rw [hpc]; rfl)
    simp only [hpc] at e
    split at e
    · injection e with e; subst e; intro _; exact hc
    · cases e
  | prepStart => simp only [hpc] at e; injection e with e; subst e; intro h; cases h
  | prepLock =>
    simp only [hpc] at e
    split at e
    · split at e <;> (injection e with e; subst e; intro h; cases h)
    · split at e <;> (injection e with e; subst e; intro h; cases h)
  | prepJoin =>
    simp only [hpc] at e
    split at e
    · injection e with e
      split at e <;> (subst e; intro h; cases h)
    · cases e
  | prepWait => simp only [hpc] at e; cases e
  | storeWait k => simp only [hpc] at e; cases e
  | getWait row => simp only [hpc] at e; cases e
  | stopWait => simp only [hpc] at e; cases e
  | closed => simp only [hpc] at e; cases e
  | failed => simp only [hpc] at e; cases e
  | unsupported => simp only [hpc] at e; cases e

/-- When `shutdown` has got to `stopThreads`, the block in memory was stored. -/
theorem stopping_unchanged {k : K} {rows nBlocks : Nat} {file : Nat → Option (Rows V)} {todo : List (Op V)}
    {s : State V K p.threads} (h : Reachable p (initial p k rows file nBlocks todo) s) :
    s.client.stopping = true → s.changed = false := by
  obtain ⟨ls, e⟩ := h
  refine run_induct (P := fun s : State V K p.threads => s.client.stopping = true → s.changed = false) ?_ ?_ e
  · intro s l s' hs he
    by_cases hl : ∃ junk, l = .client junk
    · obtain ⟨junk, rfl⟩ := hl
      exact client_stopping hs he
    · obtain ⟨ho, hc⟩ := other_own he fun junk hj => hl ⟨junk, hj⟩
      rw [ho.changed]
      rcases hc with hc | hc
      · rw [hc]; exact hs
      · rw [hc, stopping_wake]; exact hs
  · intro hx; cases hx

/-! ## The state after `shutdown` -/

/-- What holds when `shutdown` has returned. -/
structure Shut (s : State V K n) : Prop where
  started : s.started = false
  cache : s.cache = []
  threads : ∀ i, s.threads i = .done
  changed : s.changed = false

theorem closed_shut (hn : 0 < p.threads) {k : K} {rows nBlocks : Nat} {file : Nat → Option (Rows V)}
    {todo : List (Op V)} {s : State V K p.threads} (h : Reachable p (initial p k rows file nBlocks todo) s)
    (hc : s.client = .closed) : Shut s := by
  have hi := initial_reachable_inv hn h
  have hcl := hi.client
  unfold ClientOK at hcl
  rw [hc] at hcl
  exact ⟨hcl.2.1, hcl.2.2, hi.core.idle hcl.2.1, stopping_unchanged h (by rw [hc]; rfl)⟩

/-- When all threads have ended, the only other thing that happens is that other columns raise the number of blocks. -/
theorem quiet_step {s s' : State V K p.threads} {l : Label V p.threads} (ht : ∀ i, s.threads i = .done)
    (hw : s.client.wake = s.client) (hl : ∀ junk, l ≠ .client junk) (e : step p s l = some s') :
    s' = { s with nBlocks := s'.nBlocks } ∧ s.nBlocks ≤ s'.nBlocks := by
  cases l with
  | client junk => exact absurd rfl (hl junk)
  | thread i => simp only [step, threadStep, ht i] at e; cases e
  | spuriousThread i =>
    injection e with e
    have : Function.update s.threads i (s.threads i).wake = s.threads := by
      rw [ht i]
      show Function.update s.threads i .done = s.threads
      rw [← ht i, Function.update_eq_self]
    rw [this] at e
    subst e
    exact ⟨rfl, Nat.le_refl _⟩
  | spuriousClient =>
    injection e with e
    rw [hw] at e
    subst e
    exact ⟨rfl, Nat.le_refl _⟩
  | others m =>
    simp only [step] at e
    split at e
    · cases e
    · injection e with e
      subst e
      refine ⟨rfl, ?_⟩
      simp only
      split <;> omega

/-! ## Closing again -/

/-- The same column with the client elsewhere, and blocks of other columns. -/
def State.at_ (s : State V K n) (c : ClientPC V) (ops : List (Op V)) (nb : Nat) : State V K n :=
  { s with client := c, todo := ops, nBlocks := nb }

/-- Whatever happens beside the client, `P` still holds. -/
theorem at_quiet {s t t' : State V K p.threads} {c : ClientPC V} {ops : List (Op V)} {l : Label V p.threads}
    (hs : ∀ i, s.threads i = .done) (hw : c.wake = c) (h : t = s.at_ c ops t.nBlocks) (hl : ¬ ∃ junk, l = .client junk)
    (e : step p t l = some t') : t' = s.at_ c ops t'.nBlocks ∧ t.nBlocks ≤ t'.nBlocks := by
  have hq := quiet_step (by rw [h]; exact hs) (by rw [h]; exact hw) (fun junk hj => hl ⟨junk, hj⟩) e
  refine ⟨?_, hq.2⟩
  rw [hq.1, h]
  rfl

theorem close_first {s : State V K p.threads} (hs : Shut s) (nb : Nat) (junk : Nat → V) :
    step p (s.at_ .idle [.close] nb) (.client junk) = some (s.at_ .stopLock [] nb) :=
  congrArg some (if_neg (show ¬ s.changed = true by rw [hs.changed]; decide))

theorem close_second {s : State V K p.threads} (hs : Shut s) (nb : Nat) (junk : Nat → V) :
    step p (s.at_ .stopLock [] nb) (.client junk) = some (s.at_ .closed [] nb) :=
  (if_pos (show s.started = false from hs.started)).trans
    (if_neg (show ¬ s.cache ≠ [] from fun hx => hx hs.cache))

/-- The states of a second `shutdown`. -/
def Again (s t : State V K n) : Prop :=
  s.nBlocks ≤ t.nBlocks ∧ (t = s.at_ .idle [.close] t.nBlocks ∨ t = s.at_ .stopLock [] t.nBlocks ∨
    t = s.at_ .closed [] t.nBlocks)

theorem again_step {s t t' : State V K p.threads} (hs : Shut s) {l : Label V p.threads} (h : Again s t)
    (e : step p t l = some t') : Again s t' := by
  obtain ⟨hle, h⟩ := h
  by_cases hl : ∃ junk, l = .client junk
  · obtain ⟨junk, rfl⟩ := hl
    rcases h with h | h | h
    · rw [h, close_first hs] at e
      injection e with e
      subst e
      exact ⟨hle, Or.inr (Or.inl rfl)⟩
    · rw [h, close_second hs] at e
      injection e with e
      subst e
      exact ⟨hle, Or.inr (Or.inr rfl)⟩
    · rw [h] at e
      cases e
  · rcases h with h | h | h
    · have hq := at_quiet hs.threads rfl h hl e
      exact ⟨hle.trans hq.2, Or.inl hq.1⟩
    · have hq := at_quiet hs.threads rfl h hl e
      exact ⟨hle.trans hq.2, Or.inr (Or.inl hq.1)⟩
    · have hq := at_quiet hs.threads rfl h hl e
      exact ⟨hle.trans hq.2, Or.inr (Or.inr hq.1)⟩

/-- Calling `shutdown` once more changes nothing: whatever happens, the column is as after the first `shutdown` (only
the number of blocks in the file may be raised, by other columns), nothing fails, and the client returns after at most
two steps, without waiting. -/
theorem shutdown_again (hn : 0 < p.threads) {k : K} {rows nBlocks : Nat} {file : Nat → Option (Rows V)}
    {todo : List (Op V)} {s t : State V K p.threads} (h : Reachable p (initial p k rows file nBlocks todo) s)
    (hc : s.client = .closed) (ht : Reachable p (s.again [.close]) t) :
    t = { s with client := t.client, todo := t.todo, nBlocks := t.nBlocks } ∧ s.nBlocks ≤ t.nBlocks ∧
      t.client ≠ .failed ∧
      ∀ junk, ∃ j t', j ≤ 2 ∧ run p t (List.replicate j (.client junk)) = some t' ∧ t'.client = .closed := by
  have hs := closed_shut hn h hc
  obtain ⟨ls, e⟩ := ht
  have ha : Again s t := run_induct (P := Again s) (fun _ _ _ h he => again_step hs h he)
    (show Again s (s.again [.close]) from ⟨Nat.le_refl _, Or.inl rfl⟩) e
  obtain ⟨hle, ha⟩ := ha
  generalize t.nBlocks = nb at ha hle
  rcases ha with rfl | rfl | rfl
  · refine ⟨rfl, hle, (fun hx => by cases hx), fun junk => ⟨2, s.at_ .closed [] nb, Nat.le_refl _, ?_, rfl⟩⟩
    simp only [List.replicate, run, close_first hs, close_second hs, Option.bind_some]
  · refine ⟨rfl, hle, (fun hx => by cases hx), fun junk => ⟨1, s.at_ .closed [] nb, by omega, ?_, rfl⟩⟩
    simp only [List.replicate, run, close_second hs, Option.bind_some]
  · exact ⟨rfl, hle, (fun hx => by cases hx), fun junk => ⟨0, _, by omega, rfl, rfl⟩⟩

/-! ## Reading after closing -/

/-- The state after a block was read from the file and its row was returned. -/
def State.reread (p : Params V K) (s : State V K n) (row : Nat) (r : Rows V) (nb : Nat) : State V K n :=
  let b := row / s.rowsPerBlock
  let d := p.dec b (s.timesWritten b) r
  { s with
    client := .idle, todo := [], nBlocks := nb, current := b, changed := false, buffer := d
    outs := s.outs ++ [(row, d.getData (row % s.rowsPerBlock))] }

/-- The states of a read after `shutdown`, of a block other than the one in memory. -/
def Rereads (p : Params V K) (s : State V K p.threads) (row : Nat) (r : Rows V) (t : State V K p.threads) : Prop :=
  s.nBlocks ≤ t.nBlocks ∧
    (t = s.at_ .idle [.get row] t.nBlocks ∨ t = s.at_ (.getLock row) [] t.nBlocks ∨
      t = s.at_ (.load (.get row)) [] t.nBlocks ∨ t = s.reread p row r t.nBlocks)

section
variable {s : State V K p.threads} {row nb : Nat} {r : Rows V}

theorem get_first (h0 : s.rowsPerBlock ≠ 0) (hb : row / s.rowsPerBlock < nb) (junk : Nat → V) :
    step p (s.at_ .idle [.get row] nb) (.client junk) = some (s.at_ (.getLock row) [] nb) :=
  congrArg some ((if_neg (show ¬ s.rowsPerBlock = 0 from h0)).trans
    (if_neg (show ¬ nb ≤ row / s.rowsPerBlock by omega)))

theorem get_second (hs : Shut s) (hcur : row / s.rowsPerBlock ≠ s.current) (junk : Nat → V) :
    step p (s.at_ (.getLock row) [] nb) (.client junk) = some (s.at_ (.load (.get row)) [] nb) := by
  refine (if_neg (show ¬ Cache.has s.cache (row / s.rowsPerBlock) = true by rw [hs.cache]; exact Bool.false_ne_true)).trans ?_
  exact congrArg some ((if_pos (show row / s.rowsPerBlock ≠ s.current from hcur)).trans
    (if_neg (show ¬ s.changed = true by rw [hs.changed]; decide)))

theorem get_third (hb : row / s.rowsPerBlock < nb) (hf : s.file (row / s.rowsPerBlock) = some r) (junk : Nat → V) :
    step p (s.at_ (.load (.get row)) [] nb) (.client junk) = some (s.reread p row r nb) := by
  have hbuf : (State.loadBlock p (s.at_ (.load (.get row)) [] nb) (row / s.rowsPerBlock) junk).buffer =
      p.dec (row / s.rowsPerBlock) (s.timesWritten (row / s.rowsPerBlock)) r := by
    refine (if_pos (show row / s.rowsPerBlock < nb from hb)).trans ?_
    show (match s.file (row / s.rowsPerBlock) with | some r => _ | none => _) = _
    rw [hf]
    rfl
  refine congrArg some ?_
  show State.finish (State.loadBlock p (s.at_ (.load (.get row)) [] nb) (row / s.rowsPerBlock) junk) (.get row) = _
  unfold State.finish
  simp only [hbuf]
  rfl

end

theorem rereads_step {s t t' : State V K p.threads} (hs : Shut s) {row : Nat} {r : Rows V} {l : Label V p.threads}
    (h0 : s.rowsPerBlock ≠ 0) (hb : row / s.rowsPerBlock < s.nBlocks) (hcur : row / s.rowsPerBlock ≠ s.current)
    (hf : s.file (row / s.rowsPerBlock) = some r) (h : Rereads p s row r t) (e : step p t l = some t') :
    Rereads p s row r t' := by
  obtain ⟨hle, h⟩ := h
  by_cases hl : ∃ junk, l = .client junk
  · obtain ⟨junk, rfl⟩ := hl
    rcases h with h | h | h | h
    · rw [h, get_first h0 (by omega)] at e
      injection e with e
      subst e
      exact ⟨hle, Or.inr (Or.inl rfl)⟩
    · rw [h, get_second hs hcur] at e
      injection e with e
      subst e
      exact ⟨hle, Or.inr (Or.inr (Or.inl rfl))⟩
    · rw [h, get_third (by omega) hf] at e
      injection e with e
      subst e
      exact ⟨hle, Or.inr (Or.inr (Or.inr rfl))⟩
    · rw [h] at e
      cases e
  · rcases h with h | h | h | h
    · have hq := at_quiet hs.threads rfl h hl e
      exact ⟨hle.trans hq.2, Or.inl hq.1⟩
    · have hq := at_quiet hs.threads rfl h hl e
      exact ⟨hle.trans hq.2, Or.inr (Or.inl hq.1)⟩
    · have hq := at_quiet hs.threads rfl h hl e
      exact ⟨hle.trans hq.2, Or.inr (Or.inr (Or.inl hq.1))⟩
    · have hq := quiet_step (by rw [h]; exact hs.threads) (by rw [h]; rfl) (fun junk hj => hl ⟨junk, hj⟩) e
      refine ⟨hle.trans hq.2, Or.inr (Or.inr (Or.inr ?_))⟩
      rw [hq.1, h]
      rfl

/-- A row of a block other than the one that was last in memory can still be read after `shutdown`: whatever happens, the
read is not finished or it has given the row of the last store of the block (or that was in the file when the column was
opened), and the client can finish it without waiting. -/
theorem read_after_close (hn : 0 < p.threads) {k : K} {rows nBlocks : Nat} {file : Nat → Option (Rows V)}
    {todo : List (Op V)} {s t : State V K p.threads} (h : Reachable p (initial p k rows file nBlocks todo) s)
    (hc : s.client = .closed) {row : Nat} (h0 : s.rowsPerBlock ≠ 0) (hb : row / s.rowsPerBlock < s.nBlocks)
    (hcur : row / s.rowsPerBlock ≠ s.current) {r : Rows V}
    (hf : lastStored (fileAt rows file) s (row / s.rowsPerBlock) = some r)
    (ht : Reachable p (s.again [.get row]) t) :
    (t.outs = s.outs ∨ t.outs = s.outs ++ [(row,
      (p.dec (row / s.rowsPerBlock) (ofBlock s.stores (row / s.rowsPerBlock)).length r).getData
        (row % s.rowsPerBlock))]) ∧
      t.file = s.file ∧ t.writes = s.writes ∧ t.cache = [] ∧
      ∀ junk, ∃ j t', j ≤ 3 ∧ run p t (List.replicate j (.client junk)) = some t' ∧ t'.client = .idle ∧
        t'.todo = [] ∧ t'.outs = s.outs ++ [(row,
          (p.dec (row / s.rowsPerBlock) (ofBlock s.stores (row / s.rowsPerBlock)).length r).getData
            (row % s.rowsPerBlock))] := by
  have hs := closed_shut hn h hc
  have hd := (drained hn h hs.cache).2 (row / s.rowsPerBlock)
  have hfile : s.file (row / s.rowsPerBlock) = some r := by rw [hd.2]; exact hf
  have htw : s.timesWritten (row / s.rowsPerBlock) = (ofBlock s.stores (row / s.rowsPerBlock)).length := by
    rw [timesWritten_eq, hd.1]
  obtain ⟨ls, e⟩ := ht
  have ha : Rereads p s row r t := run_induct (P := Rereads p s row r)
    (fun _ _ _ h he => rereads_step hs h0 hb hcur hfile h he)
    (show Rereads p s row r (s.again [.get row]) from ⟨Nat.le_refl _, Or.inl rfl⟩) e
  obtain ⟨hle, ha⟩ := ha
  generalize t.nBlocks = nb at ha hle
  have hb' : row / s.rowsPerBlock < nb := by omega
  have hout : (s.reread p row r nb).outs = s.outs ++ [(row,
      (p.dec (row / s.rowsPerBlock) (ofBlock s.stores (row / s.rowsPerBlock)).length r).getData
        (row % s.rowsPerBlock))] := by rw [← htw]; rfl
  rcases ha with rfl | rfl | rfl | rfl
  · refine ⟨Or.inl rfl, rfl, rfl, hs.cache, fun junk => ⟨3, _, Nat.le_refl _, ?_, rfl, rfl, hout⟩⟩
    simp only [List.replicate, run, get_first h0 hb', get_second hs hcur, get_third hb' hfile, Option.bind_some]
  · refine ⟨Or.inl rfl, rfl, rfl, hs.cache, fun junk => ⟨2, _, by omega, ?_, rfl, rfl, hout⟩⟩
    simp only [List.replicate, run, get_second hs hcur, get_third hb' hfile, Option.bind_some]
  · refine ⟨Or.inl rfl, rfl, rfl, hs.cache, fun junk => ⟨1, _, by omega, ?_, rfl, rfl, hout⟩⟩
    simp only [List.replicate, run, get_third hb' hfile, Option.bind_some]
  · exact ⟨Or.inr hout, rfl, rfl, hs.cache, fun junk => ⟨0, _, by omega, rfl, rfl, rfl, hout⟩⟩

/-! ## Reading the block that was in memory -/

/-- If the block in memory had to be stored by `shutdown`, the buffer is empty afterwards although `_currentBlock` is
still that block (threadeddyscocolumn.cc:146-167): reading one of its rows is undefined behaviour. -/
theorem reread_current (hn : 0 < p.threads) {k : K} {rows nBlocks : Nat} {file : Nat → Option (Rows V)}
    {todo : List (Op V)} {s : State V K p.threads} (h : Reachable p (initial p k rows file nBlocks todo) s)
    (hc : s.client = .closed) {row : Nat} (h0 : s.rowsPerBlock ≠ 0) (hb : row / s.rowsPerBlock < s.nBlocks)
    (hcur : row / s.rowsPerBlock = s.current) (he : s.buffer.len = 0) (junk : Nat → V) :
    ∃ t, run p (s.again [.get row]) [.client junk, .client junk] = some t ∧ t.outs = s.outs ++ [(row, .outside)] := by
  have hs := closed_shut hn h hc
  have h1 : step p (s.again [.get row]) (.client junk) = some (s.at_ (.getLock row) [] s.nBlocks) := get_first h0 hb junk
  have h2 : step p (s.at_ (.getLock row) [] s.nBlocks) (.client junk) =
      some ((s.at_ (.getLock row) [] s.nBlocks).finish (.get row)) := by
    refine (if_neg (show ¬ Cache.has s.cache (row / s.rowsPerBlock) = true by
      rw [hs.cache]; exact Bool.false_ne_true)).trans ?_
    exact congrArg some (if_neg (show ¬ row / s.rowsPerBlock ≠ s.current from fun hx => hx hcur))
  refine ⟨(s.at_ (.getLock row) [] s.nBlocks).finish (.get row), ?_, ?_⟩
  · simp only [run, h1, h2, Option.bind_some]
  · show s.outs ++ [(row, s.buffer.getData (row % s.rowsPerBlock))] = _
    have : s.buffer.getData (row % s.rowsPerBlock) = .outside := if_neg (by omega)
    rw [this]

/-! ## Writing after closing -/

/-- With block `b` changed in memory. -/
def State.dirty (s : State V K n) (b : Nat) (buf : Rows V) (c : ClientPC V) (ops : List (Op V)) (nb : Nat) :
    State V K n :=
  { s with client := c, todo := ops, nBlocks := nb, buffer := buf, current := b, changed := true }

/-- With block `b` in the cache, and no thread to write it. -/
def State.stuck (s : State V K n) (b : Nat) (buf : Rows V) (c : ClientPC V) (nb : Nat) : State V K n :=
  { s with
    client := c, todo := [], nBlocks := nb, buffer := Rows.empty, current := b, changed := false
    cache := [(b, ⟨buf, false⟩)], stores := s.stores ++ [(b, buf)] }

/-- The states of a write and a `shutdown` after `shutdown`. -/
def Rewrites (s : State V K n) (row : Nat) (v : V) (t : State V K n) : Prop :=
  t = s.at_ .idle [.put row v, .close] t.nBlocks ∨ t = s.at_ (.load (.put row v)) [.close] t.nBlocks ∨
    (∃ buf, t = s.dirty (row / s.rowsPerBlock) buf .idle [.close] t.nBlocks) ∨
    (∃ buf, t = s.dirty (row / s.rowsPerBlock) buf (.store .stop) [] t.nBlocks) ∨
    (∃ buf, t = s.stuck (row / s.rowsPerBlock) buf .stopLock t.nBlocks) ∨
    ∃ buf, t = s.stuck (row / s.rowsPerBlock) buf .failed t.nBlocks

section
variable {s : State V K p.threads} {row nb : Nat} {v : V}

theorem put_first (hs : Shut s) (h0 : s.rowsPerBlock ≠ 0) (junk : Nat → V) :
    step p (s.at_ .idle [.put row v, .close] nb) (.client junk) = some (s.at_ (.load (.put row v)) [.close] nb) ∨
      ∃ buf, step p (s.at_ .idle [.put row v, .close] nb) (.client junk) =
        some (s.dirty (row / s.rowsPerBlock) buf .idle [.close] nb) := by
  by_cases hcur : row / s.rowsPerBlock = s.current
  · right
    refine ⟨s.buffer.set (row % s.rowsPerBlock) v, ?_⟩
    refine congrArg some ((if_pos (show s.rowsPerBlock ≠ 0 from h0)).trans
      ((if_neg (show ¬ row / s.rowsPerBlock ≠ s.current from fun hx => hx hcur)).trans ?_))
    unfold State.dirty
    rw [hcur]
    rfl
  · left
    exact congrArg some ((if_pos (show s.rowsPerBlock ≠ 0 from h0)).trans
      ((if_pos (show row / s.rowsPerBlock ≠ s.current from hcur)).trans
        (if_neg (show ¬ s.changed = true by rw [hs.changed]; decide))))

theorem put_second (junk : Nat → V) :
    ∃ buf, step p (s.at_ (.load (.put row v)) [.close] nb) (.client junk) =
      some (s.dirty (row / s.rowsPerBlock) buf .idle [.close] nb) := ⟨_, rfl⟩

theorem put_third {b : Nat} {buf : Rows V} (junk : Nat → V) :
    step p (s.dirty b buf .idle [.close] nb) (.client junk) = some (s.dirty b buf (.store .stop) [] nb) := rfl

theorem put_fourth (hs : Shut s) {b : Nat} (hm : 1 ≤ p.maxCache) (hb : b ≠ noBlock) {buf : Rows V} (junk : Nat → V) :
    step p (s.dirty b buf (.store .stop) [] nb) (.client junk) = some (s.stuck b buf .stopLock nb) := by
  refine congrArg some ?_
  refine (if_neg (show ¬ b = noBlock from hb)).trans ((if_neg ?_).trans ?_)
  · show ¬ (p.maxCache ≤ s.cache.length ∨ Cache.has s.cache b = true)
    rw [hs.cache]
    rintro (hx | hx)
    · have : p.maxCache ≤ 0 := hx
      omega
    · cases hx
  · have h1 : (fun i => (s.threads i).wake) = s.threads := by
      funext i
      rw [hs.threads i]
      rfl
    show State.mk _ _ _ (fun i => (s.threads i).wake) (Cache.insert s.cache b buf) _ _ _ _ _ _ _ _ _ _ _ _ = _
    rw [h1, hs.cache]
    rfl

theorem put_fifth (hs : Shut s) {b : Nat} {buf : Rows V} (junk : Nat → V) :
    step p (s.stuck b buf .stopLock nb) (.client junk) = some (s.stuck b buf .failed nb) :=
  (if_pos (show s.started = false from hs.started)).trans (if_pos (List.cons_ne_nil _ _))

end

theorem rewrites_step {s t t' : State V K p.threads} (hs : Shut s) {row : Nat} {v : V} {l : Label V p.threads}
    (hm : 1 ≤ p.maxCache) (h0 : s.rowsPerBlock ≠ 0) (hb : row / s.rowsPerBlock ≠ noBlock) (h : Rewrites s row v t)
    (e : step p t l = some t') : Rewrites s row v t' := by
  by_cases hl : ∃ junk, l = .client junk
  · obtain ⟨junk, rfl⟩ := hl
    rcases h with h | h | ⟨buf, h⟩ | ⟨buf, h⟩ | ⟨buf, h⟩ | ⟨buf, h⟩
    · rw [h] at e
      rcases put_first hs h0 junk with hx | ⟨buf, hx⟩
      · rw [hx] at e
        injection e with e
        subst e
        exact Or.inr (Or.inl rfl)
      · rw [hx] at e
        injection e with e
        subst e
        exact Or.inr (Or.inr (Or.inl ⟨buf, rfl⟩))
    · rw [h] at e
      obtain ⟨buf, hx⟩ := put_second (p := p) (s := s) (row := row) (nb := t.nBlocks) (v := v) junk
      rw [hx] at e
      injection e with e
      subst e
      exact Or.inr (Or.inr (Or.inl ⟨buf, rfl⟩))
    · rw [h, put_third] at e
      injection e with e
      subst e
      exact Or.inr (Or.inr (Or.inr (Or.inl ⟨buf, rfl⟩)))
    · rw [h, put_fourth hs hm hb] at e
      injection e with e
      subst e
      exact Or.inr (Or.inr (Or.inr (Or.inr (Or.inl ⟨buf, rfl⟩))))
    · rw [h, put_fifth hs] at e
      injection e with e
      subst e
      exact Or.inr (Or.inr (Or.inr (Or.inr (Or.inr ⟨buf, rfl⟩))))
    · rw [h] at e
      cases e
  · have hq : t' = { t with nBlocks := t'.nBlocks } := by
      refine (quiet_step ?_ ?_ (fun junk hj => hl ⟨junk, hj⟩) e).1
      · rcases h with h | h | ⟨buf, h⟩ | ⟨buf, h⟩ | ⟨buf, h⟩ | ⟨buf, h⟩ <;> (rw [h]; exact hs.threads)
      · rcases h with h | h | ⟨buf, h⟩ | ⟨buf, h⟩ | ⟨buf, h⟩ | ⟨buf, h⟩ <;> (rw [h]; rfl)
    rcases h with h | h | ⟨buf, h⟩ | ⟨buf, h⟩ | ⟨buf, h⟩ | ⟨buf, h⟩
    · exact Or.inl (by rw [hq, h]; rfl)
    · exact Or.inr (Or.inl (by rw [hq, h]; rfl))
    · exact Or.inr (Or.inr (Or.inl ⟨buf, by rw [hq, h]; rfl⟩))
    · exact Or.inr (Or.inr (Or.inr (Or.inl ⟨buf, by rw [hq, h]; rfl⟩)))
    · exact Or.inr (Or.inr (Or.inr (Or.inr (Or.inl ⟨buf, by rw [hq, h]; rfl⟩))))
    · exact Or.inr (Or.inr (Or.inr (Or.inr (Or.inr ⟨buf, by rw [hq, h]; rfl⟩))))

/-- A row that is put after `shutdown` is lost, whatever happens: there are no threads any more that would write it, the
file does not change, and the next `shutdown` does not return but raises an exception. -/
theorem write_after_close (hn : 0 < p.threads) (hm : 1 ≤ p.maxCache) {k : K} {rows nBlocks : Nat}
    {file : Nat → Option (Rows V)} {todo : List (Op V)} {s t : State V K p.threads}
    (h : Reachable p (initial p k rows file nBlocks todo) s) (hc : s.client = .closed) {row : Nat} {v : V}
    (h0 : s.rowsPerBlock ≠ 0) (hb : row / s.rowsPerBlock ≠ noBlock)
    (ht : Reachable p (s.again [.put row v, .close]) t) :
    t.file = s.file ∧ t.writes = s.writes ∧ t.client ≠ .closed ∧
      ∀ junk, ∃ j t', j ≤ 5 ∧ run p t (List.replicate j (.client junk)) = some t' ∧ t'.client = .failed := by
  have hs := closed_shut hn h hc
  obtain ⟨ls, e⟩ := ht
  have ha : Rewrites s row v t := run_induct (P := Rewrites s row v)
    (fun _ _ _ h he => rewrites_step hs hm h0 hb h he)
    (show Rewrites s row v (s.again [.put row v, .close]) from Or.inl rfl) e
  unfold Rewrites at ha
  generalize t.nBlocks = nb at ha
  have h3 : ∀ buf junk, run p (s.dirty (row / s.rowsPerBlock) buf .idle [.close] nb)
      (List.replicate 3 (.client junk)) = some (s.stuck (row / s.rowsPerBlock) buf .failed nb) := by
    intro buf junk
    simp only [List.replicate, run, put_third, put_fourth hs hm hb, put_fifth hs, Option.bind_some]
  have h4 : ∀ junk, ∃ buf, run p (s.at_ (.load (.put row v)) [.close] nb)
      (List.replicate 4 (.client junk)) = some (s.stuck (row / s.rowsPerBlock) buf .failed nb) := by
    intro junk
    obtain ⟨buf, hx⟩ := put_second (p := p) (s := s) (row := row) (nb := nb) (v := v) junk
    exact ⟨buf, by rw [List.replicate_succ]; simp only [run, hx, Option.bind_some]; exact h3 buf junk⟩
  rcases ha with ha | ha | ⟨buf, ha⟩ | ⟨buf, ha⟩ | ⟨buf, ha⟩ | ⟨buf, ha⟩
  all_goals subst ha
  · refine ⟨rfl, rfl, (fun hx => by cases hx), fun junk => ?_⟩
    rcases put_first (p := p) (nb := nb) (row := row) (v := v) hs h0 junk with hx | ⟨buf, hx⟩
    · obtain ⟨buf, h5⟩ := h4 junk
      exact ⟨5, _, Nat.le_refl _, by rw [List.replicate_succ]; simp only [run, hx, Option.bind_some]; exact h5, rfl⟩
    · exact ⟨4, _, by omega, by rw [List.replicate_succ]; simp only [run, hx, Option.bind_some]; exact h3 buf junk, rfl⟩
  · refine ⟨rfl, rfl, (fun hx => by cases hx), fun junk => ?_⟩
    obtain ⟨buf, h5⟩ := h4 junk
    exact ⟨4, _, by omega, h5, rfl⟩
  · exact ⟨rfl, rfl, (fun hx => by cases hx), fun junk => ⟨3, _, by omega, h3 buf junk, rfl⟩⟩
  · refine ⟨rfl, rfl, (fun hx => by cases hx), fun junk => ⟨2, s.stuck (row / s.rowsPerBlock) buf .failed nb, by omega, ?_, rfl⟩⟩
    simp only [List.replicate, run, put_fourth hs hm hb, put_fifth hs, Option.bind_some]
  · refine ⟨rfl, rfl, (fun hx => by cases hx), fun junk => ⟨1, s.stuck (row / s.rowsPerBlock) buf .failed nb, by omega, ?_, rfl⟩⟩
    simp only [List.replicate, run, put_fifth hs, Option.bind_some]
  · exact ⟨rfl, rfl, (fun hx => by cases hx), fun junk => ⟨0, _, by omega, rfl, rfl⟩⟩

/-! ## Examples: the hypotheses can be met -/

/-- A table with one block was opened, rows of the first and the second block were put, and the table was closed: the
block in memory is the second one and its buffer is empty; both are in the file. -/
theorem closed_sample : ∃ s, Reachable demo (initial demo 0 2 lostFile 1 [.put 0 20, .put 1 21, .put 2 22, .close]) s ∧
    ((match s.client with | .closed => true | _ => false), s.rowsPerBlock, s.nBlocks, s.current, s.buffer.len,
      s.outs.length, (lastStored (fileAt 2 lostFile) s 0).map fun r => (r.len, r.get 0)) =
      (true, 2, 2, 1, 0, 0, some (2, some 20)) :=
  reachable_of_run (ls := [c, c, c, c, c, c, c, c, t, t, t, t, t, t, c, t, c]) rfl

/-- Closing again, reading row 0 and writing are possible in this state; reading row 2 is undefined behaviour. -/
theorem closed_sample_reads : ∃ s,
    Reachable demo (initial demo 0 2 lostFile 1 [.put 0 20, .put 1 21, .put 2 22, .close]) s ∧ s.client = .closed ∧
    (∃ t, Reachable demo (s.again [.close]) t ∧ t.client = .closed) ∧
    (∃ t, Reachable demo (s.again [.get 0]) t ∧ t.outs = [(0, .row (some 20))]) ∧
    (∃ t, Reachable demo (s.again [.get 2]) t ∧ t.outs = [(2, .outside)]) ∧
    ∃ t, Reachable demo (s.again [.put 0 30, .close]) t ∧ t.client = .failed := by
  obtain ⟨s, hr, hx⟩ := closed_sample
  simp only [Prod.mk.injEq] at hx
  obtain ⟨h1, h2, h3, h4, h5, h6, h7⟩ := hx
  have hc : s.client = .closed := by
    generalize s.client = c0 at h1
    cases c0 <;> first | rfl | cases h1
  have ho : s.outs = [] := List.eq_nil_of_length_eq_zero h6
  have hn : 0 < demo.threads := by decide
  cases hl : lastStored (fileAt 2 lostFile) s 0 with
  | none => rw [hl] at h7; cases h7
  | some r =>
    rw [hl] at h7
    simp only [Option.map_some, Option.some.injEq, Prod.mk.injEq] at h7
    have hd0 : (0 : Nat) / s.rowsPerBlock = 0 := by rw [h2]
    have hd2 : (2 : Nat) / s.rowsPerBlock = 1 := by rw [h2]
    refine ⟨s, hr, hc, ?_, ?_, ?_, ?_⟩
    · obtain ⟨-, -, -, hj⟩ := shutdown_again hn hr hc ⟨[], rfl⟩
      obtain ⟨j, t', -, he, ht⟩ := hj fun _ => 0
      exact ⟨t', ⟨_, he⟩, ht⟩
    · obtain ⟨-, -, -, -, hj⟩ := read_after_close hn hr hc (row := 0) (by omega) (by omega) (by omega)
        (by rw [hd0]; exact hl) ⟨[], rfl⟩
      obtain ⟨j, t', -, he, -, -, ht⟩ := hj fun _ => 0
      refine ⟨t', ⟨_, he⟩, ?_⟩
      rw [ht, ho]
      have : r.getData (0 % s.rowsPerBlock) = .row (some 20) := by
        rw [Nat.zero_mod]
        unfold Rows.getData
        rw [if_pos (by omega), h7.2]
      exact congrArg (fun x => [((0 : Nat), x)]) this
    · obtain ⟨t', he, ht⟩ := reread_current hn hr hc (row := 2) (by omega) (by omega) (by omega) h5 fun _ => 0
      exact ⟨t', ⟨_, he⟩, by rw [ht, ho]; rfl⟩
    · obtain ⟨-, -, -, hj⟩ := write_after_close hn (by decide) hr hc (row := 0) (v := 30) (by omega)
        (by rw [hd0]; decide) ⟨[], rfl⟩
      obtain ⟨j, t', -, he, ht⟩ := hj fun _ => 0
      exact ⟨t', ⟨_, he⟩, ht⟩

end Dysco.Col
