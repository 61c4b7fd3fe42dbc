import Verif.ColumnWhole

/-! # Adding a column while blocks are pending -/

namespace Dysco.Col
variable {V K : Type} {n : Nat} {p : Params V K}

/-! ## C51 -/

/-- The client holds the mutex of the manager and needs an empty cache, in which there is a block that no
thread has written yet. -/
structure Stuck (s : State V K n) : Prop where
  pc : s.client = .prepLock ∨ s.client = .prepWait
  locked : s.locked = true
  started : s.started = true
  pending : ∃ b it, (b, it) ∈ s.cache ∧ ∀ i, s.threads i ≠ .written b

theorem Stuck.cache {s : State V K n} (h : Stuck s) : s.cache ≠ [] := by
  obtain ⟨b, it, hm, _⟩ := h.pending
  intro hx
  rw [hx] at hm
  cases hm

theorem stuck_step {s s' : State V K p.threads} (h : Stuck s) {l : Label V p.threads}
    (e : step p s l = some s') : Stuck s' := by
  obtain ⟨b, it, hm, hw⟩ := h.pending
  cases l with
  | client junk =>
    simp only [step] at e
    unfold clientStep at e
    rcases h.pc with hpc | hpc
    · simp only [hpc] at e
      rw [if_neg (by rw [h.started]; simp), if_pos h.cache] at e
      injection e with e
      subst e
      exact ⟨Or.inr rfl, h.locked, h.started, h.pending⟩
    · simp only [hpc] at e
      cases e
  | thread i =>
    simp only [step] at e
    have hnw : ∀ pc : ThreadPC V, pc ≠ .written b → ∀ j, Function.update s.threads i pc j ≠ .written b := by
      intro pc hpc j
      by_cases hj : j = i
      · subst hj
        rw [Function.update_self]
        exact hpc
      · rw [Function.update_of_ne hj]
        exact hw j
    have hseek : Stuck (s.seek i) := by
      unfold State.seek
      split
      · rename_i b' it' _
        refine ⟨h.pc, h.locked, h.started, b, ?_⟩
        by_cases hb : b = b'
        · subst hb
          exact ⟨⟨it.rows, true⟩, (mem_take _ _ _).mpr (Or.inr ⟨rfl, rfl, it.writing, hm⟩),
            hnw _ (fun hx => by cases hx)⟩
        · exact ⟨it, (mem_take _ _ _).mpr (Or.inl ⟨hm, hb⟩), hnw _ (fun hx => by cases hx)⟩
      · exact ⟨h.pc, h.locked, h.started, b, it, hm, hnw _ (by split <;> exact fun hx => by cases hx)⟩
    unfold threadStep at e
    cases ht : s.threads i with
    | head =>
      simp only [ht] at e
      split at e
      · injection e with e; subst e
        exact ⟨h.pc, h.locked, h.started, b, it, hm, hnw _ (fun hx => by cases hx)⟩
      · injection e with e; subst e; exact hseek
    | woken => simp only [ht] at e; injection e with e; subst e; exact hseek
    | encode b' r =>
      simp only [ht] at e
      rw [if_pos h.locked] at e
      cases e
    | written b' =>
      simp only [ht] at e
      injection e with e
      subst e
      have hbb : b ≠ b' := by
        rintro rfl
        exact hw i ht
      refine ⟨?_, h.locked, h.started, b, it, (mem_remove _ _ _).mpr ⟨hm, hbb⟩, ?_⟩
      · left
        show s.client.wake = _
        rcases h.pc with hpc | hpc <;> rw [hpc] <;> rfl
      · intro j hx
        exact hnw .head (fun hx => by cases hx) j (wake_eq_written.mp hx)
    | wait => simp only [ht] at e; cases e
    | done => simp only [ht] at e; cases e
  | spuriousThread i =>
    injection e with e
    subst e
    refine ⟨h.pc, h.locked, h.started, b, it, hm, ?_⟩
    intro j hx
    simp only at hx
    by_cases hj : j = i
    · subst hj
      rw [Function.update_self] at hx
      exact hw _ (wake_eq_written.mp hx)
    · rw [Function.update_of_ne hj] at hx
      exact hw j hx
  | spuriousClient =>
    injection e with e
    subst e
    refine ⟨?_, h.locked, h.started, h.pending⟩
    left
    show s.client.wake = _
    rcases h.pc with hpc | hpc <;> rw [hpc] <;> rfl
  | others m =>
    simp only [step] at e
    rw [if_pos h.locked] at e
    cases e

/-- If a block is pending when `addColumn` takes the mutex of the manager, then under no schedule does
`addColumn` ever return, and the pending block is never written. -/
theorem add_column_deadlock {s s1 s' : State V K p.threads} {junk : Nat → V} {ls : List (Label V p.threads)}
    (hpc : s.client = .prepStart) (hs : s.started = true) {b : Nat} {it : Item V} (hb : (b, it) ∈ s.cache)
    (hw : ∀ i, s.threads i ≠ .written b) (e1 : step p s (.client junk) = some s1) (e : run p s1 ls = some s') :
    (s'.client = .prepLock ∨ s'.client = .prepWait) ∧ s'.locked = true ∧ s'.cache ≠ [] ∧
      s'.writes = s.writes := by
  have h1 : Stuck s1 ∧ s1.writes = s.writes := by
    simp only [step, clientStep, hpc] at e1
    injection e1 with e1
    subst e1
    exact ⟨⟨Or.inl rfl, rfl, hs, b, it, hb, hw⟩, rfl⟩
  have := run_induct (P := fun t => Stuck t ∧ t.writes = s.writes) (fun t l t' ht he => by
    refine ⟨stuck_step ht.1 he, ?_⟩
    rw [← ht.2]
    cases l with
    | client junk =>
      simp only [step] at he
      unfold clientStep at he
      rcases ht.1.pc with hx | hx
      · simp only [hx] at he
        rw [if_neg (by rw [ht.1.started]; simp), if_pos ht.1.cache] at he
        injection he with he
        subst he
        rfl
      · simp only [hx] at he
        cases he
    | thread i =>
      simp only [step] at he
      have hseek : (t.seek i).writes = t.writes := by
        unfold State.seek
        split <;> rfl
      unfold threadStep at he
      cases hti : t.threads i with
      | head =>
        simp only [hti] at he
        split at he
        · injection he with he; subst he; rfl
        · injection he with he; subst he; exact hseek
      | woken => simp only [hti] at he; injection he with he; subst he; exact hseek
      | encode b' r =>
        simp only [hti] at he
        rw [if_pos ht.1.locked] at he
        cases he
      | written b' => simp only [hti] at he; injection he with he; subst he; rfl
      | wait => simp only [hti] at he; cases he
      | done => simp only [hti] at he; cases he
    | spuriousThread i => injection he with he; subst he; rfl
    | spuriousClient => injection he with he; subst he; rfl
    | others m =>
      simp only [step] at he
      rw [if_pos ht.1.locked] at he
      cases he) h1 e
  exact ⟨this.1.pc, this.1.locked, this.1.cache, this.2⟩

/-- Such a state is reached: three rows of two time blocks are put into a new column and another column is
added before an encoder thread has run. -/
theorem add_column_reached :
    ((run demo (initial demo 0 0 (fun _ => none) 0 [.put 0 20, .put 1 21, .put 2 22, .addColumn])
        [c, c, c, c, c, c]).map fun s =>
      ((match s.client with | .prepStart => true | _ => false), s.started, s.cache.map (·.1), s.nBlocks,
        (match s.threads (0 : Fin 1) with | .written _ => true | _ => false))) =
      some (true, true, [0], 0, false) := by
  decide +kernel

/-! ## C62: adding a column forgets the rows that are not stored yet -/

/-- When `addColumn` returns, the rows in the buffer are gone, whether or not they were stored. -/
theorem add_column_forgets {s s' : State V K p.threads} {junk : Nat → V} (hpc : s.client = .prepJoin)
    (e : step p s (.client junk) = some s') :
    s'.client = .idle ∧ s'.buffer = Rows.empty ∧ s'.current = noBlock ∧ s'.changed = s.changed ∧
      s'.stores = s.stores ∧ s'.cache = s.cache := by
  simp only [step, clientStep, hpc] at e
  split at e
  · injection e with e
    split at e <;> (subst e; exact ⟨rfl, rfl, rfl, rfl, rfl, rfl⟩)
  · cases e

/-- Two rows are put into a new column and another column is added: the rows are in no buffer, no cache and no
file any more, and no error was raised. -/
theorem add_column_loses_rows :
    ((run demo (initial demo 0 0 (fun _ => none) 0 [.put 0 20, .put 1 21, .addColumn, .get 0])
        [c, c, c, c, c, c, c]).map fun s =>
      ((match s.client with | .idle => true | _ => false), s.buffer.len, s.changed, s.stores.length,
        s.cache.length, s.nBlocks)) = some (true, 0, true, 0, 0, 0) := by
  decide +kernel

/-- The deadlock theorem on the state of `add_column_reached`: whatever runs afterwards, the call waits. -/
example : ∃ s s1 : State Nat Nat demo.threads,
    run demo (initial demo 0 0 (fun _ => none) 0 [.put 0 20, .put 1 21, .put 2 22, .addColumn]) [c, c, c, c, c, c] = some s ∧
    step demo s c = some s1 ∧ ∀ ls s', run demo s1 ls = some s' → s'.client = .prepLock ∨ s'.client = .prepWait := by
  have hs := add_column_reached
  obtain ⟨s, h1, h2⟩ := Option.map_eq_some_iff.mp hs
  simp only [Prod.mk.injEq] at h2
  obtain ⟨a1, a2, a3, -, a5⟩ := h2
  have hp : s.client = .prepStart := by cases e : s.client <;> rw [e] at a1 <;> simp at a1 ⊢
  have hb : ∃ it, (0, it) ∈ s.cache := by
    have : (0 : Nat) ∈ s.cache.map (·.1) := by rw [a3]; simp
    obtain ⟨⟨b, it⟩, x1, x2⟩ := List.mem_map.mp this
    obtain rfl : b = 0 := x2
    exact ⟨it, x1⟩
  have hw : ∀ i, s.threads i ≠ .written 0 := fun i => by
    obtain rfl : i = (0 : Fin 1) := Subsingleton.elim (α := Fin 1) _ _
    intro e
    rw [e] at a5
    simp at a5
  obtain ⟨it, hb⟩ := hb
  have h3 : (step demo s c).isSome = true := by
    have : ((run demo (initial demo 0 0 (fun _ => none) 0 [.put 0 20, .put 1 21, .put 2 22, .addColumn])
      [c, c, c, c, c, c]).map fun s => (step demo s c).isSome) = some true := by decide +kernel
    rw [h1] at this
    simpa using this
  obtain ⟨s1, h3⟩ := Option.isSome_iff_exists.mp h3
  exact ⟨s, s1, h1, h3, fun ls s' e => (add_column_deadlock hp a2 hb hw h3 e).1⟩

/-- A call that adds a column to a column without pending blocks reaches its last step (`add_column_forgets`). -/
example : ∃ s s' : State Nat Nat demo.threads,
    Reachable demo (initial demo 0 0 (fun _ => none) 0 [.put 0 20, .put 1 21, .addColumn, .get 0]) s ∧
    step demo s c = some s' ∧ s'.buffer = Rows.empty := by
  have h : ∃ s, Reachable demo (initial demo 0 0 (fun _ => none) 0 [.put 0 20, .put 1 21, .addColumn, .get 0]) s ∧
      ((match s.client with | .prepJoin => true | _ => false) && (step demo s c).isSome) = true :=
    reachable_of_run (ls := [c, c, c, c, c]) (by decide +kernel)
  obtain ⟨s, h1, h2⟩ := h
  have hp : s.client = .prepJoin := by cases e : s.client <;> rw [e] at h2 <;> simp at h2 ⊢
  simp only [Bool.and_eq_true] at h2
  obtain ⟨s', h3⟩ := Option.isSome_iff_exists.mp h2.2
  exact ⟨s, s', h1, h3, (add_column_forgets hp h3).2.1⟩

end Dysco.Col
