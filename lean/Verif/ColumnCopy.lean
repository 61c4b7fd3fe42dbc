import Verif.ColumnRefused
import Verif.ColumnUpdate

/-!
# C124: a table that is copied before it is closed

`dscompress -reorder` copies the table right after the rows were put (dscompress.cc:364-366): `deepCopy` asks the managers
to flush, which does nothing (dyscostman.cc:162-166), and then reads the rows of the open columns. Each column still has its last
block in memory.
-/

namespace Dysco.Col
variable {V K : Type} {n : Nat} {p : Params V K}

/-! ## Replacing the rest of the program -/

/-- The same state with other calls to follow. -/
def State.withTodo (s : State V K n) (t : List (Op V)) : State V K n := { s with todo := t }

theorem access_todo (s : State V K n) (k : Next V) (t : List (Op V)) :
    (s.withTodo t).access k = (s.access k).withTodo t ∧ (s.access k).todo = s.todo := by
  unfold State.access State.withTodo
  split
  · split <;> exact ⟨rfl, rfl⟩
  · cases k <;> exact ⟨rfl, rfl⟩

theorem call_todo (s : State V K n) (op : Op V) (t : List (Op V)) :
    State.call p (s.withTodo t) op = (State.call p s op).withTodo t ∧ (State.call p s op).todo = s.todo := by
  cases op with
  | put row x =>
    simp only [State.call]
    by_cases h1 : s.rowsPerBlock ≠ 0
    · have h1' : (s.withTodo t).rowsPerBlock ≠ 0 := h1
      rw [State.put, if_pos h1', State.put, if_pos h1]
      exact access_todo _ _ _
    have h1' : ¬ (s.withTodo t).rowsPerBlock ≠ 0 := h1
    rw [State.put, if_neg h1', State.put, if_neg h1]
    by_cases h2 : s.buffer.len = 0
    · have h2' : (s.withTodo t).buffer.len = 0 := h2
      rw [if_pos h2', if_pos h2]
      exact ⟨rfl, rfl⟩
    have h2' : ¬ (s.withTodo t).buffer.len = 0 := h2
    rw [if_neg h2', if_neg h2]
    by_cases h3 : p.differs (p.key row) s.last
    · have h3' : p.differs (p.key row) (s.withTodo t).last := h3
      rw [if_pos h3', if_pos h3]
      by_cases h4 : row = 0
      · rw [if_pos h4, if_pos h4]
        exact ⟨rfl, rfl⟩
      rw [if_neg h4, if_neg h4]
      by_cases h5 : s.cache ≠ []
      · have h5' : (s.withTodo t).cache ≠ [] := h5
        rw [if_pos h5', if_pos h5]
        exact ⟨rfl, rfl⟩
      have h5' : ¬ (s.withTodo t).cache ≠ [] := h5
      rw [if_neg h5', if_neg h5]
      exact access_todo (({ s with rowsPerBlock := row } : State V K n).start) _ _
    · have h3' : ¬ p.differs (p.key row) (s.withTodo t).last := h3
      rw [if_neg h3', if_neg h3]
      exact ⟨rfl, rfl⟩
  | get row =>
    simp only [State.call]
    unfold State.get State.withTodo
    split
    · exact ⟨rfl, rfl⟩
    · split <;> exact ⟨rfl, rfl⟩
  | close => by_cases h : s.changed = true <;> simp [State.call, State.withTodo, h]
  | addColumn => by_cases h : s.nBlocks = 0 <;> simp [State.call, State.withTodo, h]
  | otherInit rows =>
    by_cases h1 : s.rowsPerBlock = 0 <;> by_cases h2 : rows = 0 <;> by_cases h3 : s.cache = [] <;>
      simp [State.call, State.withTodo, h1, h2, h3, State.start]

theorem finish_todo (s : State V K n) (k : Next V) (t : List (Op V)) :
    (s.withTodo t).finish k = (s.finish k).withTodo t ∧ (s.finish k).todo = s.todo := by
  cases k <;> exact ⟨rfl, rfl⟩

/-- A step takes one call from the program, whatever follows, or none. -/
theorem client_todo {s s' : State V K n} {junk : Nat → V} (e : clientStep p s junk = some s') :
    (s'.todo = s.todo ∧ ∀ t, clientStep p (s.withTodo t) junk = some (s'.withTodo t)) ∨
    ∃ op, s.todo = op :: s'.todo ∧ ∀ t, clientStep p (s.withTodo (op :: t)) junk = some (s'.withTodo t) := by
  cases hpc : s.client with
  | idle =>
    right
    cases ht : s.todo with
    | nil => simp [clientStep, hpc, ht] at e
    | cons op rest =>
      have h0 : clientStep p s junk = some (State.call p (s.withTodo rest) op) := by
        simp [clientStep, State.withTodo, hpc, ht]
      have e : State.call p (s.withTodo rest) op = s' := Option.some.inj (h0.symm.trans e)
      refine ⟨op, ?_, fun t => ?_⟩
      · have := (call_todo (p := p) (s.withTodo rest) op []).2
        exact congrArg (op :: ·) ((congrArg State.todo e).symm.trans this).symm
      · have := (call_todo (p := p) (s.withTodo rest) op t).1
        have h : clientStep p (s.withTodo (op :: t)) junk = some (State.call p (s.withTodo t) op) := by
          simp [clientStep, State.withTodo, hpc]
        rw [h]
        exact congrArg some (this.trans (congrArg (·.withTodo t) e))
  | store k =>
    left
    simp only [clientStep, hpc] at e
    injection e with e
    subst e
    refine ⟨by unfold State.storeBlock; split <;> [rfl; (split <;> rfl)], fun t => ?_⟩
    simp only [clientStep, State.withTodo, hpc]
    unfold State.storeBlock
    split
    · rfl
    · split <;> rfl
  | getLock row =>
    left
    simp only [clientStep, hpc] at e
    split at e
    · rename_i h
      injection e with e
      subst e
      refine ⟨rfl, fun t => ?_⟩
      simp only [clientStep, State.withTodo, hpc]
      rw [if_pos h]
    · rename_i h
      injection e with e
      subst e
      refine ⟨(access_todo s _ []).2, fun t => ?_⟩
      rw [← (access_todo s (.get row) t).1]
      simp only [clientStep, State.withTodo, hpc]
      rw [if_neg h]
  | load k =>
    left
    simp only [clientStep, hpc] at e
    injection e with e
    subst e
    refine ⟨(finish_todo _ k []).2, fun t => ?_⟩
    rw [← (finish_todo _ k t).1]
    simp only [clientStep, State.withTodo, hpc]
    rfl
  | _ =>
    left
    simp only [clientStep, hpc] at e
    first
    | exact (Option.some_ne_none _ e.symm).elim
    | (injection e with e
       subst e
       refine ⟨rfl, fun t => ?_⟩
       simp only [clientStep, State.withTodo, hpc])
    | (split at e
       · split at e
         · injection e with e
           subst e
           refine ⟨rfl, fun t => ?_⟩
           simp_all [clientStep, State.withTodo]
         · injection e with e
           subst e
           refine ⟨rfl, fun t => ?_⟩
           simp_all [clientStep, State.withTodo]
       · split at e
         · injection e with e
           subst e
           refine ⟨rfl, fun t => ?_⟩
           simp_all [clientStep, State.withTodo]
         · injection e with e
           subst e
           refine ⟨rfl, fun t => ?_⟩
           simp_all [clientStep, State.withTodo])
    | (split at e
       · rename_i h
         injection e with e
         subst e
         refine ⟨by first | rfl | (split <;> rfl), fun t => ?_⟩
         simp only [clientStep, State.withTodo, hpc]
         rw [if_pos h]
         try (split <;> rfl)
       · cases e)

theorem thread_todo {s s' : State V K n} {i : Fin n} (e : threadStep s i = some s') (t : List (Op V)) :
    s'.todo = s.todo ∧ threadStep (s.withTodo t) i = some (s'.withTodo t) := by
  have seek : ∀ t, (s.withTodo t).seek i = (s.seek i).withTodo t ∧ (s.seek i).todo = s.todo := by
    intro t
    unfold State.seek State.withTodo
    split
    · rename_i h; simp only at h; simp only [h]; trivial
    · rename_i h; simp only at h; simp only [h]; trivial
  unfold threadStep at e ⊢
  cases hi : s.threads i with
  | head =>
    simp only [hi] at e
    simp only [State.withTodo, hi]
    split at e
    · rename_i h
      injection e with e
      subst e
      exact ⟨rfl, if_pos h⟩
    · rename_i h
      injection e with e
      subst e
      exact ⟨(seek t).2, (if_neg h).trans (congrArg some (seek t).1)⟩
  | woken =>
    simp only [hi] at e
    simp only [State.withTodo, hi]
    injection e with e
    subst e
    exact ⟨(seek t).2, congrArg some (seek t).1⟩
  | encode b rows =>
    simp only [hi] at e
    simp only [State.withTodo, hi]
    split at e
    · cases e
    · rename_i h
      injection e with e
      subst e
      exact ⟨rfl, if_neg h⟩
  | written b =>
    simp only [hi] at e
    simp only [State.withTodo, hi]
    injection e with e
    subst e
    exact ⟨rfl, rfl⟩
  | wait => simp only [hi] at e; cases e
  | done => simp only [hi] at e; cases e

theorem run_cons {s s1 s2 : State V K p.threads} {l : Label V p.threads} {ls : List (Label V p.threads)}
    (h1 : step p s l = some s1) (h2 : run p s1 ls = some s2) : run p s (l :: ls) = some s2 := by
  simp only [run, h1]
  exact h2

theorem run_trans {s s1 s2 : State V K p.threads} {ls ls' : List (Label V p.threads)} (h1 : run p s ls = some s1)
    (h2 : run p s1 ls' = some s2) : run p s (ls ++ ls') = some s2 := by
  induction ls generalizing s with
  | nil => injection h1 with h1; subst h1; exact h2
  | cons l ls ih =>
    simp only [run] at h1
    cases h3 : step p s l with
    | none => rw [h3] at h1; cases h1
    | some s3 =>
      rw [h3] at h1
      exact run_cons h3 (ih h1)

/-- A run takes some calls from the program, whatever follows. -/
theorem run_todo {s s' : State V K p.threads} {ls : List (Label V p.threads)} (e : run p s ls = some s') :
    ∃ a, s.todo = a ++ s'.todo ∧ ∀ t, run p (s.withTodo (a ++ t)) ls = some (s'.withTodo t) := by
  induction ls generalizing s with
  | nil => injection e with e; subst e; exact ⟨[], rfl, fun _ => rfl⟩
  | cons l ls ih =>
    simp only [run] at e
    cases h1 : step p s l with
    | none => rw [h1] at e; cases e
    | some s1 =>
      rw [h1] at e
      obtain ⟨a, h2, h3⟩ := ih e
      have same : s1.todo = s.todo → (∀ t, step p (s.withTodo t) l = some (s1.withTodo t)) →
          ∃ a, s.todo = a ++ s'.todo ∧ ∀ t, run p (s.withTodo (a ++ t)) (l :: ls) = some (s'.withTodo t) := by
        intro h4 h5
        refine ⟨a, h4 ▸ h2, fun t => ?_⟩
        simp only [run, h5]
        exact h3 t
      cases l with
      | client junk =>
        rcases client_todo h1 with ⟨h4, h5⟩ | ⟨op, h4, h5⟩
        · exact same h4 h5
        · refine ⟨op :: a, by rw [h4, h2]; rfl, fun t => ?_⟩
          have := h5 (a ++ t)
          simp only [run, step, List.cons_append, this]
          exact h3 t
      | thread i => exact same (thread_todo h1 []).1 fun t => (thread_todo h1 t).2
      | spuriousThread i =>
        injection h1 with h1
        subst h1
        exact same rfl fun t => rfl
      | spuriousClient =>
        injection h1 with h1
        subst h1
        exact same rfl fun t => rfl
      | others b =>
        simp only [step] at h1
        split at h1
        · cases h1
        · rename_i hl
          injection h1 with h1
          subst h1
          exact same rfl fun t => if_neg hl

theorem access_nBlocks (s : State V K n) (k : Next V) : (s.access k).nBlocks = s.nBlocks := by
  unfold State.access
  split
  · split <;> rfl
  · cases k <;> rfl

theorem call_nBlocks (s : State V K n) (op : Op V) : (State.call p s op).nBlocks = s.nBlocks := by
  cases op with
  | put row x =>
    simp only [State.call]
    unfold State.put
    split
    · exact access_nBlocks _ _
    · split
      · rfl
      · split
        · split
          · rfl
          · split
            · rfl
            · exact access_nBlocks _ _
        · rfl
  | get row => simp only [State.call, State.get]; split <;> [rfl; (split <;> rfl)]
  | close => simp only [State.call]; split <;> rfl
  | addColumn => simp only [State.call]; split <;> rfl
  | otherInit rows => simp only [State.call]; split <;> [rfl; (split <;> [rfl; (split <;> rfl)])]

theorem client_nBlocks {s s' : State V K n} {junk : Nat → V} (e : clientStep p s junk = some s') :
    s'.nBlocks = s.nBlocks := by
  unfold clientStep at e
  split at e
  · split at e
    · cases e
    · injection e with e; subst e; exact call_nBlocks _ _
  · injection e with e
    subst e
    unfold State.storeBlock
    split <;> [rfl; (split <;> rfl)]
  · split at e
    · injection e with e; subst e; rfl
    · injection e with e; subst e; exact access_nBlocks _ _
  · rename_i k _
    injection e with e; subst e; cases k <;> rfl
  · split at e
    · split at e <;> (injection e with e; subst e; rfl)
    · split at e <;> (injection e with e; subst e; rfl)
  · split at e
    · injection e with e; subst e; rfl
    · cases e
  · injection e with e; subst e; rfl
  · split at e
    · split at e <;> (injection e with e; subst e; rfl)
    · split at e <;> (injection e with e; subst e; rfl)
  · split at e
    · injection e with e; subst e; split <;> rfl
    · cases e
  all_goals cases e

/-- The last counted block was written. -/
def Counted (s : State V K n) : Prop := s.nBlocks ≠ 0 → ∃ r, (s.nBlocks - 1, r) ∈ s.writes

theorem counted_step {f : Nat → Option (Rows V)} {s s' : State V K p.threads} {l : Label V p.threads} (hi : Inv p f s)
    (hl : l.real = true) (h : Counted s) (e : step p s l = some s') : Counted s' := by
  cases l with
  | client junk =>
    have h1 : s'.writes = s.writes := by
      rcases client_quiet hi e with h1 | ⟨_, _, _, _, _, h1, _⟩
      · exact h1.writes
      · exact h1
    unfold Counted
    rw [client_nBlocks e, h1]
    exact h
  | thread i =>
    have seek : Counted (s.seek i) := by
      unfold State.seek
      split <;> exact h
    simp only [step] at e
    unfold threadStep at e
    split at e
    · split at e
      · injection e with e; subst e; exact h
      · injection e with e; subst e; exact seek
    · injection e with e; subst e; exact seek
    · split at e
      · cases e
      · injection e with e
        subst e
        intro h0
        simp only at h0 ⊢
        split
        · exact ⟨_, List.mem_append_right _ (List.mem_singleton.mpr rfl)⟩
        · rename_i h1
          rw [if_neg h1] at h0
          obtain ⟨r, hr⟩ := h h0
          exact ⟨r, List.mem_append_left _ hr⟩
    · injection e with e; subst e; exact h
    all_goals cases e
  | _ => cases hl

/-! ## Putting all rows, up to closing -/

section copy
variable {m R : Nat} {v : Nat → V} {f : Nat → Option (Rows V)}

theorem whole_outs {s s' : State V K p.threads} {l : Label V p.threads} (h : WholeOK p m v R s)
    (e : step p s l = some s') : s'.outs = s.outs := by
  cases l with
  | client junk =>
    unfold WholeOK at h
    rcases step_outs e with h1 | ⟨r, h1, h2, h3⟩ | ⟨r, h1, _⟩ | ⟨r, _, h1, _⟩
    · exact h1
    · rw [h1] at h
      obtain ⟨q, hw, _⟩ := h
      simp only [step, clientStep, h1] at e
      cases ht : s.todo with
      | nil => rw [ht] at hw; exact hw.elim
      | cons op rest =>
        rw [ht] at e hw
        injection e with e
        subst e
        rcases call_outs (p := p) ({ s with client := .idle, todo := rest } : State V K p.threads) op with
          h4 | ⟨r', h4, _⟩
        · exact h4
        · subst h4
          cases rest <;> exact hw.elim
    · rw [h1] at h; exact h.elim
    · rw [h1] at h
      obtain ⟨q, hq, _⟩ := h
      cases hq
  | _ => exact (other_counts e (by simp)).1

/-- Closing has not begun. -/
def Before (s : State V K n) : Prop :=
  match s.client with
  | .idle | .store (.load _) | .storeWait (.load _) | .load _ => True
  | _ => False

theorem before_other {s s' : State V K p.threads} {l : Label V p.threads} (h : Before s) (e : step p s l = some s')
    (hl : ∀ junk, l ≠ .client junk) : Before s' := by
  unfold Before at h ⊢
  rcases (other_own e hl).2 with h1 | h1 <;> rw [h1]
  · exact h
  · split at h
    all_goals first | exact h.elim | (rename_i hc; simp only [hc, ClientPC.wake])

theorem before_client {s s' : State V K p.threads} {junk : Nat → V} (h : Before s) (hok : WholeOK p m v R s)
    (hn : ¬ Copied s) (e : clientStep p s junk = some s') (hok' : WholeOK p m v R s') : Before s' := by
  have hacc : ∀ (t : State V K p.threads) (k : Next V), Before (t.access k) := by
    intro t k
    unfold State.access
    split
    · split <;> trivial
    · cases k <;> trivial
  unfold Before at h
  cases hc : s.client with
  | idle =>
    unfold WholeOK at hok
    rw [hc] at hok
    obtain ⟨r, hw, _⟩ := hok
    simp only [clientStep, hc] at e
    cases ht : s.todo with
    | nil => rw [ht] at hw; exact hw.elim
    | cons op rest =>
      rw [ht] at hw e
      injection e with e
      subst e
      cases op with
      | close =>
        cases rest with
        | nil => exact absurd ⟨hc, ht⟩ hn
        | cons _ _ => exact hw.elim
      | get _ => cases rest <;> exact hw.elim
      | addColumn => cases rest <;> exact hw.elim
      | put row x =>
        simp only [State.call] at hok' ⊢
        unfold State.put at hok' ⊢
        split
        · exact hacc _ _
        · split
          · trivial
          · split
            · split
              · rename_i h1 h2 h3 h4
                rw [if_neg h1, if_neg h2, if_pos h3, if_pos h4] at hok'
                exact hok'.elim
              · split
                · rename_i h1 h2 h3 h4 h5
                  rw [if_neg h1, if_neg h2, if_pos h3, if_neg h4, if_pos h5] at hok'
                  exact hok'.elim
                · exact hacc _ _
            · trivial
      | otherInit m' =>
        simp only [State.call] at hok' ⊢
        split
        · trivial
        · split
          · rename_i h1 h2
            rw [if_neg h1, if_pos h2] at hok'
            exact hok'.elim
          · split
            · rename_i h1 h2 h3
              rw [if_neg h1, if_neg h2, if_pos h3] at hok'
              exact hok'.elim
            · trivial
  | store k =>
    rw [hc] at h
    cases k with
    | stop => exact h.elim
    | load k =>
      simp only [clientStep, hc] at e
      injection e with e
      subst e
      unfold State.storeBlock at hok' ⊢
      split
      · rename_i h1
        rw [if_pos h1] at hok'
        exact hok'.elim
      · split <;> trivial
  | load k =>
    simp only [clientStep, hc] at e
    injection e with e
    subst e
    cases k <;> trivial
  | storeWait k => simp only [clientStep, hc] at e; cases e
  | _ => rw [hc] at h; exact h.elim

/-- What holds while the rows are put, without other columns. -/
structure Putting (p : Params V K) (m : Nat) (v : Nat → V) (R : Nat) (s : State V K p.threads) : Prop where
  inv : Inv p (fun _ => none) s
  whole : WholeOK p m v R s
  noAdd : NoAdd s
  counted : Counted s
  outs : s.outs = []
  before : Before s

/-- All rows can be put such that then nothing is left to do for the threads: all blocks but the last are in the file, and
the last one is in the buffer. -/
theorem can_copy (hn : 0 < p.threads) (hc : 1 ≤ p.maxCache) (hm : 0 < m) (hR0 : 0 < R) (hR : R ≤ noBlock)
    (hsame : ∀ r, 0 < r → r < m → p.differs (p.key r) (p.key 0) = false)
    (hdiff : m < R → p.differs (p.key m) (p.key 0) = true) {s : State V K p.threads} (h : Putting p m v R s) :
    ∃ ls s', (∀ l ∈ ls, Label.real l = true) ∧ run p s ls = some s' ∧ Putting p m v R s' ∧ Copied s' ∧ s'.cache = [] := by
  induction hw : work s using Nat.strong_induction_on generalizing s with
  | _ w ih =>
    have next : ∀ l s1, Label.real l = true → step p s l = some s1 → Before s1 →
        ∃ ls s', (∀ l ∈ ls, Label.real l = true) ∧ run p s ls = some s' ∧ Putting p m v R s' ∧ Copied s' ∧
          s'.cache = [] := by
      intro l s1 hl h1 hb
      have hlt : work s1 < w := by
        have := step_work h1
        cases l <;> simp only [Label.real, Label.spurious, if_true, Bool.false_eq_true, if_false] at this hl
        · omega
        · omega
      obtain ⟨ls, s', h2, h3, h4⟩ := ih _ hlt ⟨step_inv h.inv hn h1, whole_step hm hR0 hR hsame hdiff h.inv h.whole h1,
        noAdd_step h.noAdd h1, counted_step h.inv hl h.counted h1, (whole_outs h.whole h1).trans h.outs, hb⟩ rfl
      refine ⟨l :: ls, s', ?_, ?_, h4⟩
      · intro l' hl'
        rcases List.mem_cons.mp hl' with rfl | hl'
        · exact hl
        · exact h2 l' hl'
      · simp only [run, h1]
        exact h3
    by_cases ht : ∃ i, step p s (.thread i) ≠ none
    · obtain ⟨i, hi'⟩ := ht
      obtain ⟨s1, h1⟩ := Option.ne_none_iff_exists'.mp hi'
      exact next _ s1 rfl h1 (before_other h.before h1 (by simp))
    push Not at ht
    by_cases hcop : Copied s
    · refine ⟨[], s, by simp, rfl, h, hcop, ?_⟩
      have hinv : Inv p (fun _ => none) (s.withTodo []) :=
        h.inv.local ⟨rfl, rfl, rfl, rfl, rfl, rfl, rfl⟩ rfl h.inv.client
      have hcl := h.inv.client
      unfold ClientOK at hcl
      rw [hcop.1] at hcl
      obtain ⟨_, hf, _⟩ := no_deadlock_of_inv (s := s.withTodo []) hn hc (fun _ => v 0) hinv
        ⟨fun op hop => absurd hop List.not_mem_nil, h.noAdd.pc⟩ (by
          simp only [step, clientStep, State.withTodo, hcop.1]) (fun i => by
          cases hi : step p (s.withTodo []) (.thread i) with
          | none => rfl
          | some x =>
            have h1 := (thread_todo hi s.todo).2
            have h2 : threadStep s i = some (x.withTodo s.todo) := h1
            have h3 := ht i
            simp only [step] at h3
            rw [h3] at h2
            cases h2)
      cases hst : s.started with
      | true => exact (hf hst).1
      | false => exact (hcl.2.2 hst).1
    · cases hcs : step p s (.client fun _ => v 0) with
      | some s1 =>
        exact next _ s1 rfl hcs (before_client h.before h.whole hcop hcs
          (whole_step hm hR0 hR hsame hdiff h.inv h.whole hcs))
      | none =>
        exfalso
        have hb := h.before
        unfold Before at hb
        rcases (no_deadlock_of_inv hn hc _ h.inv h.noAdd hcs ht).1 with h1 | h1 | h1 | ⟨h1, h2⟩
        · rw [h1] at hb; exact hb
        · rw [h1] at hb; exact hb
        · rw [h1] at hb; exact hb
        · have := h.whole
          unfold WholeOK at this
          rw [h1] at this
          obtain ⟨r, h3, _⟩ := this
          rw [h2] at h3
          exact h3

/-- The rows of the column are read while the last block, `L`, is not in the file: it is in the buffer, or it was stored
by a read and is in the cache. -/
structure Reading (p : Params V K) (m L : Nat) (s : State V K p.threads) : Prop where
  idle : s.client = .idle
  rpb : s.rowsPerBlock = m
  count : s.nBlocks ≤ L
  cache : s.cache = [] ∧ s.changed = true ∧ s.current = L ∨ (∃ it, s.cache = [(L, it)]) ∧ s.changed = false

theorem read_one (hc : 1 ≤ p.maxCache) {L : Nat} (hm : 0 < m) (hL : L ≠ noBlock) {s : State V K p.threads} (h : Reading p m L s)
    {row : Nat} {rest : List (Op V)} (ht : s.todo = .get row :: rest) (junk : Nat → V) :
    ∃ ls s' x, (∀ l ∈ ls, Label.real l = true) ∧ run p s ls = some s' ∧ Reading p m L s' ∧ s'.todo = rest ∧
      s'.outs = s.outs ++ [(row, x)] ∧ (L ≤ row / m → x = .zero) := by
  by_cases hb : s.nBlocks ≤ row / m
  · have h1 := get_uncounted h.idle ht (by rw [h.rpb]; exact hb) junk
    refine ⟨[.client junk], _, .zero, by simp [Label.real], run_cons h1 rfl,
      ⟨h.idle, h.rpb, h.count, h.cache⟩, rfl, rfl, fun _ => rfl⟩
  have hlt : row / m < L := by have := h.count; omega
  have h1 : step p s (.client junk) = some { s with todo := rest, client := .getLock row } := by
    simp only [step, clientStep, h.idle, ht, State.call, State.get, h.rpb]
    rw [if_neg (by omega), if_neg hb]
  have hhas : s.cache.has (row / m) = false := by
    rcases h.cache with ⟨h2, _⟩ | ⟨⟨it, h2⟩, _⟩
    · rw [h2]; rfl
    · rw [h2]
      simp only [Cache.has, List.any_cons, List.any_nil, Bool.or_false, beq_eq_false_iff_ne]
      omega
  have hread : ∀ (s1 : State V K p.threads) (ls1 : List (Label V p.threads)), (∀ l ∈ ls1, Label.real l = true) →
      run p s ls1 = some s1 → s1.client = .load (.get row) → s1.rowsPerBlock = m → s1.nBlocks = s.nBlocks →
      (∃ it, s1.cache = [(L, it)]) → s1.todo = rest → s1.outs = s.outs →
      ∃ ls s' x, (∀ l ∈ ls, Label.real l = true) ∧ run p s ls = some s' ∧ Reading p m L s' ∧ s'.todo = rest ∧
        s'.outs = s.outs ++ [(row, x)] ∧ (L ≤ row / m → x = .zero) := by
    intro s1 ls1 a1 a2 a3 a4 a5 a6 a7 a8
    have h2 : step p s1 (.client junk) = some ((State.loadBlock p s1 (row / m) junk).finish (.get row)) := by
      simp only [step, clientStep, a3, Next.row, a4]
    refine ⟨ls1 ++ [.client junk], (State.loadBlock p s1 (row / m) junk).finish (.get row),
      (State.loadBlock p s1 (row / m) junk).buffer.getData (row % s1.rowsPerBlock), ?_, ?_, ?_, ?_, ?_,
      fun hx => absurd hx (by omega)⟩
    · intro l hl
      rcases List.mem_append.mp hl with hl | hl
      · exact a1 l hl
      · rw [List.mem_singleton.mp hl]; rfl
    · exact run_trans a2 (run_cons h2 rfl)
    · exact ⟨rfl, a4, a5 ▸ h.count, Or.inr ⟨a6, rfl⟩⟩
    · exact a7
    · rw [← a8]; rfl
  rcases h.cache with ⟨c1, c2, c3⟩ | ⟨⟨it, c1⟩, c2⟩
  · have h2 : step p { s with todo := rest, client := .getLock row } (.client junk) =
        some { s with todo := rest, client := .store (.load (.get row)) } := by
      simp only [step, clientStep, h.rpb]
      rw [if_neg (by rw [hhas]; simp)]
      simp only [State.access, Next.row, c2, if_true]
      rw [if_pos (by rw [c3]; omega)]
    have h3 : step p { s with todo := rest, client := .store (.load (.get row)) } (.client junk) =
        some { s with
          todo := rest
          client := .load (.get row)
          cache := s.cache.insert s.current s.buffer
          stores := s.stores ++ [(s.current, s.buffer)]
          changed := false
          buffer := Rows.empty
          threads := fun i => (s.threads i).wake } := by
      simp only [step, clientStep, State.storeBlock]
      rw [if_neg (by rw [c3]; exact hL), if_neg (by rw [c1]; simp [Cache.has]; omega)]
      rfl
    refine hread _ [.client junk, .client junk, .client junk] (by simp [Label.real])
      (run_cons h1 (run_cons h2 (run_cons h3 rfl))) rfl h.rpb rfl ⟨⟨s.buffer, false⟩, ?_⟩ rfl rfl
    show s.cache.insert s.current s.buffer = _
    rw [c1, c3]
    rfl
  · by_cases hcur : row / m = s.current
    · have h2 : step p { s with todo := rest, client := .getLock row } (.client junk) =
          some { s with todo := rest, client := .idle, outs := s.outs ++ [(row, s.buffer.getData (row % m))] } := by
        simp only [step, clientStep, h.rpb]
        rw [if_neg (by rw [hhas]; simp)]
        simp only [State.access, Next.row]
        rw [if_neg (by simpa using hcur)]
        simp only [State.finish]
      exact ⟨[.client junk, .client junk], _, _, by simp [Label.real], run_cons h1 (run_cons h2 rfl),
        ⟨rfl, h.rpb, h.count, Or.inr ⟨⟨it, c1⟩, c2⟩⟩, rfl, rfl, fun hx => absurd hx (by omega)⟩
    · have h2 : step p { s with todo := rest, client := .getLock row } (.client junk) =
          some { s with todo := rest, client := .load (.get row) } := by
        simp only [step, clientStep, h.rpb]
        rw [if_neg (by rw [hhas]; simp)]
        simp only [State.access, Next.row, c2]
        rw [if_pos hcur]
        simp
      exact hread _ [.client junk, .client junk] (by simp [Label.real])
        (run_cons h1 (run_cons h2 rfl)) rfl h.rpb rfl ⟨it, c1⟩ rfl rfl

theorem read_all (hc : 1 ≤ p.maxCache) {L : Nat} (hm : 0 < m) (hL : L ≠ noBlock) (junk : Nat → V) (t : List (Op V)) :
    ∀ (rows : List Nat) (s : State V K p.threads), Reading p m L s → s.todo = rows.map .get ++ t →
      ∃ ls s' xs, (∀ l ∈ ls, Label.real l = true) ∧ run p s ls = some s' ∧ Reading p m L s' ∧ s'.todo = t ∧
        s'.outs = s.outs ++ xs ∧ xs.map (·.1) = rows ∧ ∀ x ∈ xs, L ≤ x.1 / m → x.2 = .zero
  | [], s, h, ht => ⟨[], s, [], by simp, rfl, h, ht, by simp, rfl, by simp⟩
  | row :: rows, s, h, ht => by
    obtain ⟨ls1, s1, x, a1, a2, a3, a4, a5, a6⟩ := read_one hc hm hL h ht junk
    obtain ⟨ls2, s2, xs, b1, b2, b3, b4, b5, b6, b7⟩ := read_all hc hm hL junk t rows s1 a3 a4
    refine ⟨ls1 ++ ls2, s2, (row, x) :: xs, ?_, run_trans a2 b2, b3, b4, ?_, by simp [b6], ?_⟩
    · intro l hl
      rcases List.mem_append.mp hl with hl | hl
      · exact a1 l hl
      · exact b1 l hl
    · rw [b5, a5]; simp
    · intro y hy
      rcases List.mem_cons.mp hy with rfl | hy
      · exact a6
      · exact b7 y hy

/-- **C124** (negative) All rows of a column of at least two blocks are put, then rows are read, before the column is
closed: `dscompress -reorder` reads them all in this way, with `rows = List.range R`, and removes the table that they were
read from. There is a schedule of the threads along which every row of the last block that is read gives zeros. The rows
are in memory until then. -/
theorem copy_zeros (hn : 0 < p.threads) (hc : 1 ≤ p.maxCache) (hm : 0 < m) (hR : R ≤ noBlock) (hmR : m < R)
    (hsame : ∀ r, 0 < r → r < m → p.differs (p.key r) (p.key 0) = false)
    (hdiff : p.differs (p.key m) (p.key 0) = true) {rows0 : Nat} {k : K} {puts : List (Op V)}
    (hrows : rows0 = m ∨ rows0 = 0) (hw : Whole m v R 0 (puts ++ [.close])) (rows : List Nat) :
    ∃ ls s, (∀ l ∈ ls, Label.real l = true) ∧
      run p (initial p k rows0 (fun _ => none) 0 (puts ++ rows.map .get ++ [.close])) ls = some s ∧
      s.client = .idle ∧ s.todo = [.close] ∧ s.outs.map (·.1) = rows ∧
      ∀ x ∈ s.outs, (R - 1) / m * m ≤ x.1 → x.2 = .zero := by
  have hR0 : 0 < R := by omega
  have hno : ∀ (q : Nat) (t : List (Op V)), Whole m v R q t → ∀ op ∈ t, op.noAdd = true := by
    intro q t
    induction t generalizing q with
    | nil => intro h; exact h.elim
    | cons op t ih =>
      intro h op' hop
      cases op with
      | close =>
        cases t with
        | nil => rw [List.mem_singleton.mp hop]; rfl
        | cons _ _ => exact h.elim
      | put row x =>
        rcases List.mem_cons.mp hop with rfl | hop
        · rfl
        · cases t <;> exact ih _ h.2.2.2 _ hop
      | otherInit m' =>
        rcases List.mem_cons.mp hop with rfl | hop
        · rfl
        · cases t <;> exact ih _ h.2 _ hop
      | get _ => cases t <;> exact h.elim
      | addColumn => cases t <;> exact h.elim
  have h0 : Putting p m v R (initial p k rows0 (fun _ => none) 0 (puts ++ [.close])) := by
    refine ⟨?_, whole_initial ?_ hw, ⟨hno 0 _ hw, rfl⟩, ?_, rfl, trivial⟩
    · have := initial_inv (p := p) hn k rows0 (fun _ => none) 0 (puts ++ [.close])
      rwa [show (if rows0 = 0 then fun _ => none else fun _ => none) = (fun _ => none : Nat → Option (Rows V)) from
        by split <;> rfl] at this
    · rcases hrows with h | h
      · exact Or.inl h
      · exact Or.inr ⟨h, hmR⟩
    · intro h
      simp [initial] at h
  obtain ⟨ls1, s1, a1, a2, a3, ⟨a4, a5⟩, a6⟩ := can_copy hn hc hm hR0 hR hsame (fun _ => hdiff) h0
  obtain ⟨a, b1, b2⟩ := run_todo a2
  have ha : a = puts := by
    rw [a5] at b1
    exact (List.append_cancel_right b1).symm
  subst ha
  have hrun := b2 (rows.map .get ++ [.close])
  have hok := a3.whole
  unfold WholeOK at hok
  rw [a4] at hok
  obtain ⟨r, h1, _, h3⟩ := hok
  rw [a5] at h1
  have h1 : r = R := h1
  subst h1
  rcases h3 with h3 | h3
  · have := h3.le
    omega
  obtain ⟨c1, c2, _, g, c3, _⟩ := h3.some hR0
  have hcount : s1.nBlocks ≤ (r - 1) / m := by
    by_cases hz : s1.nBlocks = 0
    · omega
    obtain ⟨x, hx⟩ := a3.counted hz
    have h4 := a3.inv.core.settled (s1.nBlocks - 1) (Or.inl (by rw [a6]; rfl))
    have h5 : (s1.nBlocks - 1, x) ∈ s1.stores := by
      rw [← mem_ofBlock, h4, mem_ofBlock]
      exact hx
    rw [c3, List.mem_map] at h5
    obtain ⟨b, hb, hb'⟩ := h5
    rw [List.mem_range] at hb
    have : b = s1.nBlocks - 1 := congrArg Prod.fst hb'
    omega
  have hL : (r - 1) / m ≠ noBlock := by
    have : (r - 1) / m ≤ r - 1 := Nat.div_le_self _ _
    omega
  obtain ⟨ls2, s2, xs, d1, d2, d3, d4, d5, d6, d7⟩ := read_all hc hm hL (fun _ => v 0) [.close] rows
    (s1.withTodo (rows.map .get ++ [.close])) ⟨a4, h3.rpb, hcount, Or.inl ⟨a6, c2, c1⟩⟩ rfl
  have d5 : s2.outs = xs := by
    rw [d5]
    show s1.outs ++ xs = xs
    rw [a3.outs]; rfl
  refine ⟨ls1 ++ ls2, s2, ?_, ?_, d3.idle, d4, by rw [d5]; exact d6, ?_⟩
  · intro l hl
    rcases List.mem_append.mp hl with hl | hl
    · exact a1 l hl
    · exact d1 l hl
  · refine run_trans ?_ d2
    rw [← hrun, ← List.append_assoc]
    rfl
  · intro x hx hle
    rw [d5] at hx
    refine d7 x hx ?_
    rw [Nat.le_div_iff_mul_le hm]
    exact hle

end copy

/-- The hypotheses are met by a new table of three blocks of two rows. -/
example : ∃ (p : Params Nat Nat) (m R : Nat) (v : Nat → Nat) (puts : List (Op Nat)), 0 < p.threads ∧ 1 ≤ p.maxCache ∧
    0 < m ∧ m < R ∧ R ≤ noBlock ∧ (∀ r, 0 < r → r < m → p.differs (p.key r) (p.key 0) = false) ∧
    p.differs (p.key m) (p.key 0) = true ∧ Whole m v R 0 (puts ++ [.close]) := by
  refine ⟨⟨2, 2, fun r => r / 2, fun a b => decide (a ≠ b), fun _ _ r => r⟩, 2, 6, fun r => r,
    [.put 0 0, .put 1 1, .put 2 2, .put 3 3, .put 4 4, .put 5 5], by decide, by decide, by decide, by decide,
    by decide, ?_, by decide, by simp [Whole]⟩
  intro r h1 h2
  have : r = 1 := by omega
  subst this
  decide

/-- Copying a table of three blocks of two rows, then reading rows 1, 4 and 5: rows 4 and 5 are read as zeros. -/
example : ∃ ls s, (∀ l ∈ ls, Label.real l = true) ∧
    run demo (initial demo 0 0 (fun _ => none) 0 ([.put 0 0, .put 1 1, .put 2 2, .put 3 3, .put 4 4, .put 5 5] ++
      [1, 4, 5].map .get ++ [.close])) ls = some s ∧ s.outs.map (·.1) = [1, 4, 5] ∧
      ∀ x ∈ s.outs, 4 ≤ x.1 → x.2 = .zero := by
  obtain ⟨ls, s, h1, h2, -, -, h3, h4⟩ := copy_zeros (p := demo) (m := 2) (R := 6) (v := fun r => r) (by decide)
    (by decide) (by decide) (by decide) (by decide) (fun r h1 h2 => by
      obtain rfl : r = 1 := by omega
      decide) (by decide) (rows0 := 0) (k := 0) (puts := [.put 0 0, .put 1 1, .put 2 2, .put 3 3, .put 4 4, .put 5 5])
    (.inr rfl) (by simp [Whole]) [1, 4, 5]
  exact ⟨ls, s, h1, h2, h3, h4⟩

end Dysco.Col
