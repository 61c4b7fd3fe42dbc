import Verif.MultiModel

/-! # Each column of a manager behaves as a column on its own -/

namespace Dysco.Multi
open Col
variable {V K : Type} {c n : Nat} {W : Fin c → Type} {P : (i : Fin c) → Params (W i) K} {p : Params V K}

/-! ## Steps of a column do not depend on what is left to do -/

/-- Another list of calls, another number of rows per block. -/
def frame (s : State V K n) (todo : List (Op V)) (rpb : Nat) : State V K n :=
  { s with todo := todo, rowsPerBlock := rpb }

theorem seek_frame (s : State V K n) (t : Fin n) (todo : List (Op V)) (rpb : Nat) :
    (frame s todo rpb).seek t = frame (s.seek t) todo rpb := by
  unfold State.seek
  have hc : (frame s todo rpb).cache.available = s.cache.available := rfl
  rw [hc]
  cases s.cache.available <;> rfl

theorem thread_frame (s : State V K n) (t : Fin n) (todo : List (Op V)) (rpb : Nat) :
    threadStep (frame s todo rpb) t = (threadStep s t).map fun s' => frame s' todo rpb := by
  unfold threadStep
  have ht : (frame s todo rpb).threads t = s.threads t := rfl
  rw [ht]
  cases s.threads t with
  | head =>
    simp only [seek_frame]
    have hs : (frame s todo rpb).stop = s.stop := rfl
    rw [hs]
    by_cases h : s.stop = true
    · rw [if_pos h, if_pos h]; rfl
    · rw [if_neg h, if_neg h]; rfl
  | woken => simp only [seek_frame, Option.map_some]
  | encode b r =>
    simp only
    have hs : (frame s todo rpb).locked = s.locked := rfl
    rw [hs]
    by_cases h : s.locked = true
    · rw [if_pos h, if_pos h]; rfl
    · rw [if_neg h, if_neg h]; rfl
  | written b => rfl
  | wait => rfl
  | done => rfl

theorem access_frame (s : State V K n) (k : Next V) (todo : List (Op V)) :
    (frame s todo s.rowsPerBlock).access k = frame (s.access k) todo s.rowsPerBlock := by
  unfold State.access
  have e1 : (frame s todo s.rowsPerBlock).rowsPerBlock = s.rowsPerBlock := rfl
  have e2 : (frame s todo s.rowsPerBlock).current = s.current := rfl
  have e3 : (frame s todo s.rowsPerBlock).changed = s.changed := rfl
  by_cases h : k.row / s.rowsPerBlock ≠ s.current
  · rw [e1, e2, e3, if_pos h, if_pos h]
    by_cases h2 : s.changed = true
    · rw [if_pos h2, if_pos h2]; rfl
    · rw [if_neg h2, if_neg h2]; rfl
  · rw [e1, e2, if_neg h, if_neg h]
    cases k <;> rfl

/-- The shared variables are the same. -/
structure Shared (s s' : State V K n) : Prop where
  rpb : s'.rowsPerBlock = s.rowsPerBlock
  nBlocks : s'.nBlocks = s.nBlocks
  locked : s'.locked = s.locked
  todo : s'.todo = s.todo

theorem access_shared (s : State V K n) (k : Next V) : Shared s (s.access k) := by
  unfold State.access
  split
  · split <;> exact ⟨rfl, rfl, rfl, rfl⟩
  · cases k <;> exact ⟨rfl, rfl, rfl, rfl⟩

/-- The client is inside a call that does not prepare the column again. -/
def inCall : ClientPC V → Bool
  | .idle | .prepStart | .prepLock | .prepWait | .prepJoin => false
  | _ => true

theorem client_frame {s s' : State V K n} {junk : Nat → V} (hc : inCall s.client = true)
    (e : clientStep p s junk = some s') (todo : List (Op V)) :
    clientStep p (frame s todo s.rowsPerBlock) junk = some (frame s' todo s.rowsPerBlock) ∧ Shared s s' := by
  unfold clientStep at e ⊢
  match hpc : s.client with
  | .idle | .prepStart | .prepLock | .prepWait | .prepJoin => rw [hpc] at hc; cases hc
  | .store k =>
    simp only [hpc] at e
    injection e with e
    subst e
    simp only [frame, hpc, State.storeBlock]
    split
    · exact ⟨rfl, rfl, rfl, rfl, rfl⟩
    · split <;> exact ⟨rfl, rfl, rfl, rfl, rfl⟩
  | .getLock row =>
    simp only [hpc] at e
    simp only
    have hr : (frame s todo s.rowsPerBlock).rowsPerBlock = s.rowsPerBlock := rfl
    have hca : (frame s todo s.rowsPerBlock).cache = s.cache := rfl
    rw [hr, hca]
    split at e
    · rename_i hx
      injection e with e
      subst e
      rw [if_pos hx]
      exact ⟨rfl, rfl, rfl, rfl, rfl⟩
    · rename_i hx
      injection e with e
      subst e
      rw [if_neg hx, access_frame]
      exact ⟨rfl, access_shared s _⟩
  | .load k =>
    simp only [hpc] at e
    injection e with e
    subst e
    simp only [frame, hpc]
    cases k <;> exact ⟨rfl, rfl, rfl, rfl, rfl⟩
  | .stopLock =>
    simp only [hpc] at e
    simp only [frame, hpc]
    split at e
    · rename_i h1
      rw [if_pos h1]
      split at e
      · rename_i h2; injection e with e; subst e; rw [if_pos h2]; exact ⟨rfl, rfl, rfl, rfl, rfl⟩
      · rename_i h2; injection e with e; subst e; rw [if_neg h2]; exact ⟨rfl, rfl, rfl, rfl, rfl⟩
    · rename_i h1
      rw [if_neg h1]
      split at e
      · rename_i h2; injection e with e; subst e; rw [if_pos h2]; exact ⟨rfl, rfl, rfl, rfl, rfl⟩
      · rename_i h2; injection e with e; subst e; rw [if_neg h2]; exact ⟨rfl, rfl, rfl, rfl, rfl⟩
  | .join =>
    simp only [hpc] at e
    simp only [frame, hpc]
    split at e
    · rename_i h1
      injection e with e
      subst e
      rw [if_pos h1]
      exact ⟨rfl, rfl, rfl, rfl, rfl⟩
    · cases e
  | .storeWait k | .getWait row | .stopWait | .closed | .failed | .unsupported =>
    simp only [hpc] at e; cases e

/-- The number of blocks does not go down, and the rest of the shared variables stay. -/
theorem thread_shared {s s' : State V K n} {t : Fin n} (e : threadStep s t = some s') :
    s'.rowsPerBlock = s.rowsPerBlock ∧ s.nBlocks ≤ s'.nBlocks ∧ s'.locked = s.locked ∧ s'.todo = s.todo := by
  have hseek : (s.seek t).rowsPerBlock = s.rowsPerBlock ∧ s.nBlocks ≤ (s.seek t).nBlocks ∧
      (s.seek t).locked = s.locked ∧ (s.seek t).todo = s.todo := by
    unfold State.seek
    split <;> exact ⟨rfl, le_rfl, rfl, rfl⟩
  unfold threadStep at e
  cases ht : s.threads t with
  | head =>
    simp only [ht] at e
    split at e
    · injection e with e; subst e; exact ⟨rfl, le_rfl, rfl, rfl⟩
    · injection e with e; subst e; exact hseek
  | woken => simp only [ht] at e; injection e with e; subst e; exact hseek
  | encode b r =>
    simp only [ht] at e
    split at e
    · cases e
    · injection e with e
      subst e
      refine ⟨rfl, ?_, rfl, rfl⟩
      simp only
      split <;> omega
  | written b => simp only [ht] at e; injection e with e; subst e; exact ⟨rfl, le_rfl, rfl, rfl⟩
  | wait => simp only [ht] at e; cases e
  | done => simp only [ht] at e; cases e

/-- A call that does not fix the rows per block. -/
theorem put_frame {s : State V K n} {row : Nat} {v : V} (h : startsBlocks p s row = false) (todo : List (Op V)) :
    State.put p (frame s todo s.rowsPerBlock) row v = frame (State.put p s row v) todo s.rowsPerBlock ∧
      Shared s (State.put p s row v) := by
  unfold State.put
  have hr : (frame s todo s.rowsPerBlock).rowsPerBlock = s.rowsPerBlock := rfl
  have hb : (frame s todo s.rowsPerBlock).buffer = s.buffer := rfl
  have hl : (frame s todo s.rowsPerBlock).last = s.last := rfl
  rw [hr, hb, hl]
  by_cases h1 : s.rowsPerBlock ≠ 0
  · rw [if_pos h1, if_pos h1, access_frame]
    exact ⟨rfl, access_shared s _⟩
  · rw [if_neg h1, if_neg h1]
    by_cases h2 : s.buffer.len = 0
    · rw [if_pos h2, if_pos h2]
      exact ⟨rfl, rfl, rfl, rfl, rfl⟩
    · rw [if_neg h2, if_neg h2]
      by_cases h3 : p.differs (p.key row) s.last = true
      · rw [if_pos h3, if_pos h3]
        have hrow : row = 0 := by
          unfold startsBlocks at h
          rw [not_not] at h1
          simp only [h1, h3, beq_self_eq_true, Bool.true_and, Bool.and_true, Bool.and_eq_false_imp, bne_iff_ne,
            ne_eq, h2, not_false_eq_true, bne_eq_false_iff_eq, forall_const] at h
          exact h
        rw [if_pos hrow, if_pos hrow]
        exact ⟨rfl, rfl, rfl, rfl, rfl⟩
      · rw [if_neg h3, if_neg h3]
        exact ⟨rfl, rfl, rfl, rfl, rfl⟩

theorem get_frame (s : State V K n) (row : Nat) (todo : List (Op V)) :
    State.get (frame s todo s.rowsPerBlock) row = frame (State.get s row) todo s.rowsPerBlock ∧
      Shared s (State.get s row) := by
  unfold State.get
  have e1 : (frame s todo s.rowsPerBlock).rowsPerBlock = s.rowsPerBlock := rfl
  have e2 : (frame s todo s.rowsPerBlock).nBlocks = s.nBlocks := rfl
  by_cases h : s.rowsPerBlock = 0
  · rw [e1, e2, if_pos h, if_pos h]
    exact ⟨rfl, rfl, rfl, rfl, rfl⟩
  · rw [e1, e2, if_neg h, if_neg h]
    by_cases h2 : s.nBlocks ≤ row / s.rowsPerBlock
    · rw [if_pos h2, if_pos h2]; exact ⟨rfl, rfl, rfl, rfl, rfl⟩
    · rw [if_neg h2, if_neg h2]; exact ⟨rfl, rfl, rfl, rfl, rfl⟩

theorem close_frame (s : State V K n) (todo : List (Op V)) :
    State.call p (frame s todo s.rowsPerBlock) .close = frame (State.call p s .close) todo s.rowsPerBlock ∧
      Shared s (State.call p s .close) := by
  unfold State.call
  have e1 : (frame s todo s.rowsPerBlock).changed = s.changed := rfl
  by_cases h : s.changed = true
  · simp only [e1, if_pos h]; exact ⟨rfl, rfl, rfl, rfl, rfl⟩
  · simp only [e1, if_neg h]; exact ⟨rfl, rfl, rfl, rfl, rfl⟩

theorem reachable_step {s0 s s' : State V K p.threads} (h : Reachable p s0 s) {l : Label V p.threads}
    (e : step p s l = some s') : Reachable p s0 s' := by
  obtain ⟨ls, h⟩ := h
  refine ⟨ls ++ [l], ?_⟩
  have : ∀ (ls : List (Label V p.threads)) s0, run p s0 ls = some s → run p s0 (ls ++ [l]) = some s' := by
    intro ls
    induction ls with
    | nil =>
      intro s0 h0
      injection h0 with h0
      subst h0
      simp only [List.nil_append, run, e, Option.bind_some]
    | cons l' ls ih =>
      intro s0 h0
      simp only [run, List.cons_append] at h0 ⊢
      cases h1 : step p s0 l' with
      | none => rw [h1] at h0; cases h0
      | some s1 =>
        rw [h1] at h0
        exact ih s1 h0
  exact this ls s0 h

/-! ## The column as it would be on its own -/

/-- The column was not yet reached by `initializeRowsPerBlock`. -/
def uninit (S : MState P) (i : Fin c) : Bool :=
  match S.pc with
  | .init _ _ _ k => decide (k ≤ i)
  | _ => false

/-- Column `i`, with `rest` left to do. -/
def proj (S : MState P) (i : Fin c) (rest : List (Op (W i))) : State (W i) K (P i).threads :=
  frame (S.view i) rest (if uninit S i then 0 else S.rowsPerBlock)

/-- The calls of column `i`. -/
def ops (i : Fin c) : List (MOp W) → List (Op (W i))
  | [] => []
  | .put j row v :: rest => if h : j = i then .put row (h ▸ v) :: ops i rest else ops i rest
  | .get j row :: rest => if j = i then .get row :: ops i rest else ops i rest
  | .close :: rest => .close :: ops i rest

/-- The calls of column `i` that it did not begin yet. -/
def left (S : MState P) (i : Fin c) : List (Op (W i)) :=
  match S.pc with
  | .init j row v _ | .header j row v => (if h : j = i then [.put row (h ▸ v)] else []) ++ ops i S.todo
  | .close k => (if k ≤ i then [.close] else []) ++ ops i S.todo
  | .closing j => (if j < i then [.close] else []) ++ ops i S.todo
  | .idle | .call _ | .closed => ops i S.todo
  | .failed | .unsupported => []

/-- The operation stands for another column that found the rows per block. Not in the code. -/
def isInit : Op V → Bool
  | .otherInit _ => true
  | _ => false

/-- Without the calls that stand for other columns. -/
def own (l : List (Op V)) : List (Op V) := l.filter fun o => !isInit o

/-- The program is over because of an exception. -/
def over (S : MState P) : Prop := S.pc = .failed ∨ S.pc = .unsupported

/-- The columns are being closed. -/
def final (S : MState P) : Prop :=
  match S.pc with
  | .close _ | .closing _ | .closed | .failed | .unsupported => True
  | .idle | .call _ | .init .. | .header .. => False

/-- Column `i` got to its state by itself, by the calls `done`. -/
structure Alone (k : K) (rows : Nat) (file : (i : Fin c) → Nat → Option (Rows (W i))) (nB : Nat) (prog : List (MOp W))
    (S : MState P) (i : Fin c) (done : List (Op (W i))) : Prop where
  split : ∃ tail, own done ++ (left S i ++ tail) = ops i prog ∧ (over S ∨ tail = [])
  init : ∀ m, .otherInit m ∈ done → m = S.rowsPerBlock ∧ m ≠ 0 ∧ rows = 0
  order : ∃ d1 d2, done = d1 ++ d2 ∧ .close ∉ d1 ∧ ∀ m, .otherInit m ∉ d2
  ending : .close ∈ done → final S
  reach : ∀ rest, Reachable (P i) (initial (P i) k rows (file i) nB (done ++ rest)) (proj S i rest)

/-- In a put or get of a column. -/
def working : ClientPC V → Bool
  | .store (.load _) | .storeWait (.load _) | .getLock _ | .getWait _ | .load _ => true
  | _ => false

/-- In `shutdown` of a column. -/
def stopping : ClientPC V → Bool
  | .store .stop | .storeWait .stop | .stopLock | .stopWait | .join => true
  | _ => false

/-- The client has nothing to do in the column. -/
def resting : ClientPC V → Bool
  | .idle | .closed | .failed | .unsupported => true
  | _ => false

/-- Where the columns are, by the place of the client. -/
def Place (S : MState P) : Prop :=
  match S.pc with
  | .idle => ∀ i, (S.cols i).client = .idle
  | .call i => (∀ j, j ≠ i → (S.cols j).client = .idle) ∧ working (S.cols i).client = true
  | .init _ row _ _ | .header _ row _ => S.rowsPerBlock = row ∧ row ≠ 0 ∧
    ∀ j, (S.cols j).client = .idle ∧ (S.cols j).cache = []
  | .close k => ∀ j : Fin c, (j.val < k → (S.cols j).client = .closed) ∧ (k ≤ j.val → (S.cols j).client = .idle)
  | .closing i => stopping (S.cols i).client = true ∧
    ∀ j : Fin c, (j.val < i.val → (S.cols j).client = .closed) ∧ (i.val < j.val → (S.cols j).client = .idle)
  | .closed => ∀ j, (S.cols j).client = .closed
  | .failed => (∀ j, resting (S.cols j).client = true) ∧ ∃ j, (S.cols j).client = .failed
  | .unsupported => (∀ j, resting (S.cols j).client = true) ∧ ∃ j, (S.cols j).client = .unsupported

theorem working_inCall {pc : ClientPC V} (h : working pc = true) : inCall pc = true := by
  unfold working at h
  split at h <;> first | rfl | cases h

theorem stopping_inCall {pc : ClientPC V} (h : stopping pc = true) : inCall pc = true := by
  unfold stopping at h
  split at h <;> first | rfl | cases h

theorem working_access {s : State V K n} (k : Next V) :
    (s.access k).client = .idle ∨ working (s.access k).client = true := by
  unfold State.access
  split
  · split <;> exact .inr rfl
  · cases k <;> exact .inl rfl

theorem working_put {s : State V K n} {row : Nat} {v : V} (h : startsBlocks p s row = false) (hc : s.client = .idle) :
    (State.put p s row v).client = .idle ∨ (State.put p s row v).client = .unsupported ∨
      working (State.put p s row v).client = true := by
  unfold State.put
  split
  · rcases working_access (s := s) (.put row v) with h | h
    · exact .inl h
    · exact .inr (.inr h)
  · rename_i h1
    split
    · exact .inl hc
    · rename_i h2
      split
      · rename_i h3
        split
        · exact .inr (.inl rfl)
        · rename_i h4
          exfalso
          unfold startsBlocks at h
          rw [not_not] at h1
          simp [h1, h2, h3, h4] at h
      · exact .inl hc

theorem working_get {s : State V K n} {row : Nat} (hc : s.client = .idle) :
    (State.get s row).client = .idle ∨ working (State.get s row).client = true := by
  unfold State.get
  split
  · exact .inl hc
  · split
    · exact .inl hc
    · exact .inr rfl

theorem stopping_close {s : State V K n} : stopping (State.call p s .close).client = true := by
  unfold State.call
  simp only
  split <;> rfl

theorem working_step {s s' : State V K n} {junk : Nat → V} (h : working s.client = true)
    (e : clientStep p s junk = some s') :
    s'.client = .idle ∨ s'.client = .unsupported ∨ working s'.client = true := by
  unfold clientStep at e
  match hpc : s.client with
  | .store (.load k) =>
    simp only [hpc] at e
    injection e with e
    subst e
    unfold State.storeBlock
    split
    · exact .inr (.inl rfl)
    · split <;> exact .inr (.inr rfl)
  | .getLock row =>
    simp only [hpc] at e
    split at e
    · injection e with e; subst e; exact .inr (.inr rfl)
    · injection e with e
      subst e
      rcases working_access (s := s) (.get row) with h | h
      · exact .inl h
      · exact .inr (.inr h)
  | .load k =>
    simp only [hpc] at e
    injection e with e
    subst e
    cases k <;> exact .inl rfl
  | .storeWait (.load _) | .getWait _ => simp only [hpc] at e; cases e
  | .idle | .prepStart | .prepLock | .prepWait | .prepJoin | .store .stop | .storeWait .stop | .stopLock | .stopWait
  | .join | .closed | .failed | .unsupported => rw [hpc] at h; cases h

theorem stopping_step {s s' : State V K n} {junk : Nat → V} (h : stopping s.client = true)
    (e : clientStep p s junk = some s') :
    s'.client = .closed ∨ s'.client = .failed ∨ s'.client = .unsupported ∨ stopping s'.client = true := by
  unfold clientStep at e
  match hpc : s.client with
  | .store .stop =>
    simp only [hpc] at e
    injection e with e
    subst e
    unfold State.storeBlock
    split
    · exact .inr (.inr (.inl rfl))
    · split <;> exact .inr (.inr (.inr rfl))
  | .stopLock =>
    simp only [hpc] at e
    split at e
    · split at e
      · injection e with e; subst e; exact .inr (.inl rfl)
      · injection e with e; subst e; exact .inl rfl
    · split at e
      · injection e with e; subst e; exact .inr (.inr (.inr rfl))
      · injection e with e; subst e; exact .inr (.inr (.inr rfl))
  | .join =>
    simp only [hpc] at e
    split at e
    · injection e with e; subst e; exact .inl rfl
    · cases e
  | .storeWait .stop | .stopWait => simp only [hpc] at e; cases e
  | .idle | .prepStart | .prepLock | .prepWait | .prepJoin | .store (.load _) | .storeWait (.load _) | .getLock _
  | .getWait _ | .load _ | .closed | .failed | .unsupported => rw [hpc] at h; cases h

/-! ## Views -/

theorem view_set (S : MState P) {i : Fin c} {s : State (W i) K (P i).threads} (h1 : s.rowsPerBlock = S.rowsPerBlock)
    (h2 : s.locked = false) (h3 : s.todo = []) : (S.set i s).view i = s := by
  unfold MState.view MState.set
  simp only [Function.update_self, ← h1, ← h2, ← h3]

/-- A step of column `i`. -/
theorem alone_own {k : K} {rows nB : Nat} {file : (i : Fin c) → Nat → Option (Rows (W i))} {prog : List (MOp W)}
    {S S' : MState P} {i : Fin c} {done : List (Op (W i))} (h : Alone k rows file nB prog S i done) (o : List (Op (W i)))
    (l : Label (W i) (P i).threads) (hs : ∀ rest, step (P i) (proj S i (o ++ rest)) l = some (proj S' i rest))
    (hl : ∃ tail, own o ++ (left S' i ++ tail) = left S i ∧ (over S' ∨ tail = [])) (ho : over S → over S')
    (hi : ∀ m, .otherInit m ∈ done ++ o → m = S'.rowsPerBlock ∧ m ≠ 0 ∧ rows = 0)
    (hord : (∀ m, .otherInit m ∉ o) ∨ .close ∉ done ++ o) (hend : .close ∈ done ++ o → final S') :
    Alone k rows file nB prog S' i (done ++ o) := by
  refine ⟨?_, hi, ?_, hend, fun rest => ?_⟩
  · obtain ⟨t1, h1, h2⟩ := h.split
    obtain ⟨t2, h3, h4⟩ := hl
    refine ⟨t2 ++ t1, ?_, ?_⟩
    · rw [← h1, ← h3]
      unfold own
      simp only [List.filter_append, List.append_assoc]
    · rcases h4 with h4 | h4
      · exact .inl h4
      · rcases h2 with h2 | h2
        · exact .inl (ho h2)
        · exact .inr (by rw [h2, h4]; rfl)
  · rcases hord with hord | hord
    · obtain ⟨d1, d2, h1, h2, h3⟩ := h.order
      refine ⟨d1, d2 ++ o, by rw [h1, List.append_assoc], h2, fun m hm => ?_⟩
      rcases List.mem_append.mp hm with hm | hm
      · exact h3 m hm
      · exact hord m hm
    · exact ⟨done ++ o, [], (List.append_nil _).symm, hord, fun m => by simp⟩
  · rw [List.append_assoc]
    exact reachable_step (h.reach (o ++ rest)) (hs rest)

/-- A step of another column. -/
theorem alone_other {k : K} {rows nB : Nat} {file : (i : Fin c) → Nat → Option (Rows (W i))} {prog : List (MOp W)}
    {S S' : MState P} {i : Fin c} {done : List (Op (W i))} (h : Alone k rows file nB prog S i done)
    (hc : S'.cols i = S.cols i) (hb : S.nBlocks ≤ S'.nBlocks) (hr : S'.rowsPerBlock = S.rowsPerBlock)
    (hu : uninit S' i = uninit S i)
    (hl : ∃ tail, left S' i ++ tail = left S i ∧ (over S' ∨ tail = [])) (ho : over S → over S')
    (hf : final S → final S') : Alone k rows file nB prog S' i done := by
  have := alone_own (S' := S') h [] (.others S'.nBlocks) ?_ hl ho (by
    intro m hm
    rw [List.append_nil] at hm
    rw [hr]
    exact h.init m hm) (.inl (by simp)) (fun hx => hf (h.ending (by rwa [List.append_nil] at hx)))
  · rwa [List.append_nil] at this
  · intro rest
    have e : proj S' i rest = { proj S i rest with nBlocks := S'.nBlocks } := by
      unfold proj frame MState.view
      rw [hu, hc, hr]
    rw [e]
    unfold step
    simp only [List.nil_append]
    have e2 : (proj S i rest).locked = false := rfl
    have e3 : (proj S i rest).nBlocks = S.nBlocks := rfl
    rw [e2, e3, if_pos hb]
    rfl

theorem set_client {S : MState P} {i : Fin c} {s : State (W i) K (P i).threads}
    (h : s.client = (S.cols i).client ∨ s.client = (S.cols i).client.wake) (j : Fin c) :
    ((S.set i s).cols j).client = (S.cols j).client ∨ ((S.set i s).cols j).client = (S.cols j).client.wake := by
  unfold MState.set
  by_cases hj : j = i
  · subst hj
    simp only [Function.update_self]
    exact h
  · simp only [Function.update_of_ne hj, true_or]

theorem set_cache {S : MState P} {i : Fin c} {s : State (W i) K (P i).threads}
    (h : (S.cols i).cache = [] → s.cache = []) (j : Fin c) (hc : (S.cols j).cache = []) :
    ((S.set i s).cols j).cache = [] := by
  unfold MState.set
  by_cases hj : j = i
  · subst hj
    simp only [Function.update_self]
    exact h hc
  · simp only [Function.update_of_ne hj, hc]

theorem set_same (S : MState P) {i j : Fin c} (s : State (W i) K (P i).threads) (hj : j ≠ i) :
    (S.set i s).cols j = S.cols j := by
  unfold MState.set
  simp only [Function.update_of_ne hj]

theorem set_self (S : MState P) {i : Fin c} (s : State (W i) K (P i).threads) : (S.set i s).cols i = s := by
  unfold MState.set
  simp only [Function.update_self]

theorem same_wake {x y : ClientPC V} (h : y = x ∨ y = x.wake) :
    (x = .idle → y = .idle) ∧ (x = .closed → y = .closed) ∧ (working x = true → working y = true) ∧
      (stopping x = true → stopping y = true) ∧ (resting x = true → resting y = true) ∧
      (x = .failed → y = .failed) ∧ (x = .unsupported → y = .unsupported) := by
  rcases h with rfl | rfl
  · exact ⟨id, id, id, id, id, id, id⟩
  · refine ⟨fun h => by rw [h]; rfl, fun h => by rw [h]; rfl, fun h => ?_, fun h => ?_, fun h => ?_,
      fun h => by rw [h]; rfl, fun h => by rw [h]; rfl⟩
    · unfold working at h
      split at h <;> first | rfl | cases h
    · unfold stopping at h
      split at h <;> first | rfl | cases h
    · unfold resting at h
      split at h <;> first | rfl | cases h

/-- A step that is not one of the client. -/
theorem place_set {S : MState P} {i : Fin c} {s : State (W i) K (P i).threads} (h : Place S)
    (h1 : s.client = (S.cols i).client ∨ s.client = (S.cols i).client.wake)
    (h2 : (S.cols i).cache = [] → s.cache = []) : Place (S.set i s) := by
  have hw := fun j => same_wake (set_client h1 j)
  have hc := fun j => set_cache h2 j
  unfold Place at h ⊢
  have hpc : (S.set i s).pc = S.pc := rfl
  rw [hpc]
  cases e : S.pc with
  | idle => rw [e] at h; exact fun j => (hw j).1 (h j)
  | call k => rw [e] at h; exact ⟨fun j hj => (hw j).1 (h.1 j hj), (hw k).2.2.1 h.2⟩
  | init _ row _ _ =>
    rw [e] at h
    exact ⟨h.1, h.2.1, fun j => ⟨(hw j).1 (h.2.2 j).1, hc j (h.2.2 j).2⟩⟩
  | header _ row _ =>
    rw [e] at h
    exact ⟨h.1, h.2.1, fun j => ⟨(hw j).1 (h.2.2 j).1, hc j (h.2.2 j).2⟩⟩
  | close k =>
    rw [e] at h
    exact fun j => ⟨fun hj => (hw j).2.1 ((h j).1 hj), fun hj => (hw j).1 ((h j).2 hj)⟩
  | closing k =>
    rw [e] at h
    exact ⟨(hw k).2.2.2.1 h.1, fun j => ⟨fun hj => (hw j).2.1 ((h.2 j).1 hj), fun hj => (hw j).1 ((h.2 j).2 hj)⟩⟩
  | closed => rw [e] at h; exact fun j => (hw j).2.1 (h j)
  | failed =>
    rw [e] at h
    obtain ⟨h1, j, h2⟩ := h
    exact ⟨fun j => (hw j).2.2.2.2.1 (h1 j), j, (hw j).2.2.2.2.2.1 h2⟩
  | unsupported =>
    rw [e] at h
    obtain ⟨h1, j, h2⟩ := h
    exact ⟨fun j => (hw j).2.2.2.2.1 (h1 j), j, (hw j).2.2.2.2.2.2 h2⟩

theorem uninit_pc {S S' : MState P} (h : S'.pc = S.pc) (i : Fin c) : uninit S' i = uninit S i := by
  unfold uninit
  rw [h]

theorem left_pc {S S' : MState P} (h : S'.pc = S.pc) (ht : S'.todo = S.todo) (i : Fin c) : left S' i = left S i := by
  unfold left
  rw [h, ht]

theorem over_pc {S S' : MState P} (h : S'.pc = S.pc) : over S → over S' := by
  unfold over
  rw [h]
  exact id

theorem final_pc {S S' : MState P} (h : S'.pc = S.pc) : final S → final S' := by
  unfold final
  rw [h]
  exact id

/-- Invariant: every column runs as if it were alone. Not in the code. -/
structure Good (k : K) (rows : Nat) (file : (i : Fin c) → Nat → Option (Rows (W i))) (nB : Nat) (prog : List (MOp W))
    (S : MState P) : Prop where
  place : Place S
  cols : ∀ i, ∃ done, Alone k rows file nB prog S i done
  fresh : rows ≠ 0 → S.rowsPerBlock = rows ∧ ∀ i row v m, S.pc ≠ .init i row v m

variable {k : K} {rows nB : Nat} {file : (i : Fin c) → Nat → Option (Rows (W i))} {prog : List (MOp W)}

/-- A step of a thread of column `i`, or a wake-up. -/
theorem good_set {S : MState P} {i : Fin c} {s : State (W i) K (P i).threads} (h : Good k rows file nB prog S)
    (l : Label (W i) (P i).threads)
    (hs : ∀ rest r, step (P i) (frame (S.view i) rest r) l = some (frame s rest r))
    (h1 : s.client = (S.cols i).client ∨ s.client = (S.cols i).client.wake)
    (h2 : (S.cols i).cache = [] → s.cache = []) (h3 : s.rowsPerBlock = S.rowsPerBlock) (h4 : s.locked = false)
    (h5 : s.todo = []) (h6 : S.nBlocks ≤ s.nBlocks) : Good k rows file nB prog (S.set i s) := by
  refine ⟨place_set h.place h1 h2, fun j => ?_, h.fresh⟩
  obtain ⟨done, hd⟩ := h.cols j
  have hpc : (S.set i s).pc = S.pc := rfl
  by_cases hj : j = i
  · subst hj
    refine ⟨done ++ [], alone_own hd [] l (fun rest => ?_) ?_ (over_pc hpc) ?_ (.inl (by simp))
      (fun hx => final_pc hpc (hd.ending (by rwa [List.append_nil] at hx)))⟩
    · unfold proj
      rw [view_set S h3 h4 h5, uninit_pc hpc]
      exact hs rest _
    · exact ⟨[], by rw [List.append_nil, left_pc hpc rfl]; rfl, .inr rfl⟩
    · intro m hm
      rw [List.append_nil] at hm
      exact hd.init m hm
  · exact ⟨done, alone_other hd (set_same S s hj) h6 rfl (uninit_pc hpc j)
      ⟨[], by rw [List.append_nil, left_pc hpc rfl], .inr rfl⟩ (over_pc hpc) (final_pc hpc)⟩

theorem thread_client {s s' : State V K n} {t : Fin n} (e : threadStep s t = some s') :
    (s'.client = s.client ∨ s'.client = s.client.wake) ∧ (s.cache = [] → s'.cache = []) := by
  have hseek : ((s.seek t).client = s.client ∨ (s.seek t).client = s.client.wake) ∧
      (s.cache = [] → (s.seek t).cache = []) := by
    unfold State.seek
    split
    · exact ⟨.inl rfl, fun h => by simp only [h]; rfl⟩
    · exact ⟨.inl rfl, id⟩
  unfold threadStep at e
  cases ht : s.threads t with
  | head =>
    simp only [ht] at e
    split at e
    · injection e with e; subst e; exact ⟨.inl rfl, id⟩
    · injection e with e; subst e; exact hseek
  | woken => simp only [ht] at e; injection e with e; subst e; exact hseek
  | encode b r =>
    simp only [ht] at e
    split at e
    · cases e
    · injection e with e; subst e; exact ⟨.inl rfl, id⟩
  | written b =>
    simp only [ht] at e
    injection e with e
    subst e
    exact ⟨.inr rfl, fun h => by simp only [State.notify, h]; rfl⟩
  | wait => simp only [ht] at e; cases e
  | done => simp only [ht] at e; cases e

theorem good_thread {S S' : MState P} {i : Fin c} {t : Fin (P i).threads} (h : Good k rows file nB prog S)
    (e : mstep S (.thread i t) = some S') : Good k rows file nB prog S' := by
  simp only [mstep, Option.map_eq_some_iff] at e
  obtain ⟨s, e, rfl⟩ := e
  obtain ⟨h1, h2⟩ := thread_client e
  obtain ⟨h3, h4, h5, h6⟩ := thread_shared e
  refine good_set h (.thread t) (fun rest r => ?_) h1 h2 h3 h5 h6 h4
  show threadStep _ t = _
  rw [thread_frame, e]
  rfl

theorem good_spurious {S S' : MState P} {i : Fin c} {t : Fin (P i).threads} (h : Good k rows file nB prog S)
    (e : mstep S (.spuriousThread i t) = some S') : Good k rows file nB prog S' := by
  simp only [mstep, step, Option.map_some] at e
  injection e with e
  subst e
  exact good_set h (.spuriousThread t) (fun _ _ => rfl) (.inl rfl) id rfl rfl rfl le_rfl

theorem good_wake {S S' : MState P} {i : Fin c} (h : Good k rows file nB prog S)
    (e : mstep S (.spuriousClient i) = some S') : Good k rows file nB prog S' := by
  simp only [mstep, step, Option.map_some] at e
  injection e with e
  subst e
  exact good_set h .spuriousClient (fun _ _ => rfl) (.inr rfl) id rfl rfl rfl le_rfl

/-! ## Steps of the client -/

/-- The result of a step in a put or get. -/
theorem enter_pc (S : MState P) {i : Fin c} {s : State (W i) K (P i).threads}
    (h : s.client = .idle ∨ s.client = .unsupported ∨ working s.client = true) :
    (s.client = .idle ∧ (S.enter i s).pc = .idle) ∨ (s.client = .unsupported ∧ (S.enter i s).pc = .unsupported) ∨
      (working s.client = true ∧ (S.enter i s).pc = .call i) := by
  unfold MState.enter
  rcases h with h | h | h
  · exact .inl ⟨h, by simp only [h]⟩
  · exact .inr (.inl ⟨h, by simp only [h]⟩)
  · refine .inr (.inr ⟨h, ?_⟩)
    simp only
    split
    · rename_i h2; rw [h2] at h; cases h
    · rename_i h2; rw [h2] at h; cases h
    · rename_i h2; rw [h2] at h; cases h
    · rfl

theorem enter_place {S : MState P} {i : Fin c} {s : State (W i) K (P i).threads}
    (h : s.client = .idle ∨ s.client = .unsupported ∨ working s.client = true)
    (ho : ∀ j, j ≠ i → (S.cols j).client = .idle) : Place (S.enter i s) := by
  have hcols : (S.enter i s).cols = (S.set i s).cols := rfl
  unfold Place
  rw [hcols]
  rcases enter_pc S h with ⟨h1, h2⟩ | ⟨h1, h2⟩ | ⟨h1, h2⟩
  · rw [h2]
    intro j
    by_cases hj : j = i
    · subst hj; rw [set_self]; exact h1
    · rw [set_same S s hj]; exact ho j hj
  · rw [h2]
    refine ⟨fun j => ?_, i, by rw [set_self, h1]⟩
    by_cases hj : j = i
    · subst hj; rw [set_self, h1]; rfl
    · rw [set_same S s hj, ho j hj]; rfl
  · rw [h2]
    refine ⟨fun j hj => ?_, by rw [set_self]; exact h1⟩
    rw [set_same S s hj]
    exact ho j hj

theorem enter_left (S : MState P) {i : Fin c} {s : State (W i) K (P i).threads}
    (h : s.client = .idle ∨ s.client = .unsupported ∨ working s.client = true) (j : Fin c) :
    (∃ tail, left (S.enter i s) j ++ tail = ops j S.todo ∧ (over (S.enter i s) ∨ tail = [])) ∧
      uninit (S.enter i s) j = false := by
  have ht : (S.enter i s).todo = S.todo := rfl
  unfold left uninit over
  rw [ht]
  rcases enter_pc S h with ⟨_, h2⟩ | ⟨_, h2⟩ | ⟨_, h2⟩ <;> rw [h2]
  · exact ⟨⟨[], List.append_nil _, .inr rfl⟩, rfl⟩
  · exact ⟨⟨ops j S.todo, rfl, .inl (.inr rfl)⟩, rfl⟩
  · exact ⟨⟨[], List.append_nil _, .inr rfl⟩, rfl⟩

theorem step_call {s : State V K p.threads} (h : s.client = .idle) (op : Op V) (rest : List (Op V)) (r : Nat)
    (junk : Nat → V) :
    step p (frame s ([op] ++ rest) r) (.client junk) = some (State.call p (frame s rest r) op) := by
  cases s
  subst h
  rfl

theorem call_init {s : State V K n} {row : Nat} (h : s.rowsPerBlock = 0) (hr : row ≠ 0) (hc : s.cache = []) :
    State.call p s (.otherInit row) = { s with rowsPerBlock := row }.start := by
  unfold State.call
  simp only
  rw [if_neg (not_not.mpr h), if_neg hr, if_neg (not_not.mpr hc)]

/-- A step of the client in a put or get of column `i`. -/
theorem good_enter {S S1 : MState P} {i : Fin c} {s : State (W i) K (P i).threads} (h : Good k rows file nB prog S)
    (hs1 : S1.cols = S.cols ∧ S1.nBlocks = S.nBlocks ∧ S1.rowsPerBlock = S.rowsPerBlock)
    (hlive : ¬ over S) (hfin : ¬ final S) (hu : ∀ j, uninit S j = false)
    (hc : s.client = .idle ∨ s.client = .unsupported ∨ working s.client = true)
    (ho : ∀ j, j ≠ i → (S.cols j).client = .idle)
    (o : List (Op (W i))) (hoi : ∀ m, Op.otherInit m ∉ o) (hoc : Op.close ∉ o) (l : Label (W i) (P i).threads)
    (hs : ∀ rest, step (P i) (frame (S.view i) (o ++ rest) S.rowsPerBlock) l = some (frame s rest S.rowsPerBlock))
    (hsh : Shared (S.view i) s)
    (hl : own o ++ ops i S1.todo = left S i) (hl2 : ∀ j, j ≠ i → ops j S1.todo = left S j) :
    Good k rows file nB prog (S1.enter i s) := by
  obtain ⟨e1, e2, e3⟩ := hs1
  have hv : (S1.enter i s).view i = s := view_set S1 (by rw [hsh.rpb, e3]; rfl) (by rw [hsh.locked]; rfl)
    (by rw [hsh.todo]; rfl)
  have hrpb : (S1.enter i s).rowsPerBlock = S.rowsPerBlock := e3
  refine ⟨enter_place hc (fun j hj => by rw [e1]; exact ho j hj), fun j => ?_, fun hx => ⟨?_, ?_⟩⟩
  · obtain ⟨done, hd⟩ := h.cols j
    by_cases hj : j = i
    · subst hj
      refine ⟨done ++ o, alone_own hd o l (fun rest => ?_) ?_ (fun hx => (hlive hx).elim) ?_
        (.inl hoi) (fun hx => ?_)⟩
      · unfold proj
        rw [hv, hu j, (enter_left S1 hc j).2, hrpb]
        exact hs rest
      · obtain ⟨tail, h1, h2⟩ := (enter_left S1 hc j).1
        exact ⟨tail, by rw [h1, hl], h2⟩
      · intro m hm
        rw [hrpb]
        rcases List.mem_append.mp hm with hm | hm
        · exact hd.init m hm
        · exact (hoi m hm).elim
      · rcases List.mem_append.mp hx with hx | hx
        · exact (hfin (hd.ending hx)).elim
        · exact (hoc hx).elim
    · refine ⟨done, alone_other hd ?_ ?_ hrpb (by rw [(enter_left S1 hc j).2, hu j]) ?_ (fun hx => (hlive hx).elim)
        (fun hx => (hfin hx).elim)⟩
      · rw [show (S1.enter i s).cols j = (S1.set i s).cols j from rfl, set_same S1 s hj, e1]
      · show S.nBlocks ≤ s.nBlocks
        rw [hsh.nBlocks]
        exact le_rfl
      · obtain ⟨tail, h1, h2⟩ := (enter_left S1 hc j).1
        exact ⟨tail, by rw [h1, hl2 j hj], h2⟩
  · rw [hrpb]
    exact (h.fresh hx).1
  · intro i' row v m
    rcases enter_pc S1 hc with ⟨_, h2⟩ | ⟨_, h2⟩ | ⟨_, h2⟩ <;> rw [h2] <;> simp

theorem view_client (S : MState P) (i : Fin c) : (S.view i).client = (S.cols i).client := rfl

/-- Only the place of the client changes. -/
theorem good_pc {S S' : MState P} (h : Good k rows file nB prog S) (hp : Place S') (hc : S'.cols = S.cols)
    (hb : S'.nBlocks = S.nBlocks) (hlive : ¬ over S)
    (hr : ∀ i, (if uninit S' i then 0 else S'.rowsPerBlock) = (if uninit S i then 0 else S.rowsPerBlock))
    (hi : S'.rowsPerBlock = S.rowsPerBlock ∨ S.rowsPerBlock = 0) (hl : ∀ i, left S' i = left S i)
    (hf : final S → final S') (hfr : rows ≠ 0 → S'.rowsPerBlock = rows ∧ ∀ i row v m, S'.pc ≠ .init i row v m) :
    Good k rows file nB prog S' := by
  refine ⟨hp, fun i => ?_, hfr⟩
  obtain ⟨done, hd⟩ := h.cols i
  refine ⟨done, ?_, fun m hm => ?_, hd.order, fun hx => hf (hd.ending hx), fun rest => ?_⟩
  · obtain ⟨tail, h1, h2⟩ := hd.split
    rcases h2 with h2 | h2
    · exact (hlive h2).elim
    · exact ⟨tail, by rw [hl, h1], .inr h2⟩
  · obtain ⟨h1, h2⟩ := hd.init m hm
    rcases hi with hi | hi
    · rw [hi]; exact ⟨h1, h2⟩
    · rw [hi] at h1; exact (h2.1 h1).elim
  · have : proj S' i rest = proj S i rest := by
      unfold proj
      rw [hr i]
      unfold frame MState.view
      rw [hc, hb]
    rw [this]
    exact hd.reach rest

/-- Before the rows per block are known nothing is in the cache. -/
theorem unknown_cache (hn : ∀ i, 0 < (P i).threads) {S : MState P} (h : Good k rows file nB prog S) (i : Fin c)
    (hr : S.rowsPerBlock = 0) (hc : (S.cols i).client = .idle) : (S.cols i).cache = [] := by
  obtain ⟨done, hd⟩ := h.cols i
  have hi := initial_reachable_inv (hn i) (hd.reach [])
  have h1 := hi.offsets (by
    show (if uninit S i then 0 else S.rowsPerBlock) = 0
    rw [hr]
    split <;> rfl)
  have h2 := hi.client
  unfold ClientOK at h2
  have e : (proj S i []).client = .idle := hc
  rw [e] at h2
  exact (h2.2.2 h1).1

theorem not_over {S : MState P} {pc : MPC W} (h : S.pc = pc) (h1 : pc ≠ .failed) (h2 : pc ≠ .unsupported) :
    ¬ over S := by
  rintro (h3 | h3)
  · exact h1 (h ▸ h3)
  · exact h2 (h ▸ h3)

theorem good_client (hn : ∀ i, 0 < (P i).threads) {S S' : MState P} {junk : (i : Fin c) → Nat → W i}
    (h : Good k rows file nB prog S) (e : S.client junk = some S') : Good k rows file nB prog S' := by
  unfold MState.client at e
  have hp := h.place
  unfold Place at hp
  cases hpc : S.pc with
  | idle =>
    rw [hpc] at hp
    have hlive : ¬ over S := not_over hpc (by simp) (by simp)
    have hu : ∀ j, uninit S j = false := fun j => by unfold uninit; rw [hpc]
    have hfin : ¬ final S := by unfold final; rw [hpc]; exact id
    have hleft : ∀ j, left S j = ops j S.todo := fun j => by unfold left; rw [hpc]
    simp only [hpc] at e
    cases ht : S.todo with
    | nil => rw [ht] at e; cases e
    | cons op rest =>
      cases op with
      | put i row v =>
        simp only [ht] at e
        by_cases hs : startsBlocks (P i) (S.view i) row = true
        · rw [if_pos hs] at e
          injection e with e
          subst e
          unfold startsBlocks at hs
          simp only [Bool.and_eq_true, beq_iff_eq, bne_iff_ne, ne_eq] at hs
          obtain ⟨⟨⟨h1, h2⟩, h3⟩, h4⟩ := hs
          have h1' : S.rowsPerBlock = 0 := h1
          refine good_pc h ⟨rfl, h4, fun j => ⟨hp j, unknown_cache hn h j h1' (hp j)⟩⟩ rfl rfl hlive ?_ (.inr h1') ?_
            (fun hx => (hfin hx).elim) (fun hx => absurd ((h.fresh hx).1.symm.trans h1') hx)
          · intro j
            rw [hu j, h1']
            have : uninit ({ S with todo := rest, rowsPerBlock := row, pc := .init i row v 0 } : MState P) j = true := by
              unfold uninit
              simp only [Nat.zero_le, decide_true]
            rw [this]
            rfl
          · intro j
            rw [hleft, ht]
            unfold left
            simp only [ops]
            split <;> rfl
        · rw [if_neg hs] at e
          rw [Bool.not_eq_true] at hs
          injection e with e
          subst e
          refine good_enter h ⟨rfl, rfl, rfl⟩ hlive hfin hu (working_put hs (hp i)) (fun j _ => hp j) [.put row v]
            (by simp) (by simp) (.client (junk i)) (fun rest' => ?_) (put_frame hs []).2 ?_ ?_
          · rw [step_call (s := S.view i) (hp i)]
            exact congrArg some (put_frame hs rest').1
          · rw [hleft, ht]; simp [ops, own, isInit]
          · intro j hj
            rw [hleft, ht]
            simp only [ops, dif_neg (Ne.symm hj)]
      | get i row =>
        simp only [ht] at e
        injection e with e
        subst e
        refine good_enter h ⟨rfl, rfl, rfl⟩ hlive hfin hu ?_ (fun j _ => hp j) [.get row]
          (by simp) (by simp) (.client (junk i)) (fun rest' => ?_) (get_frame _ row []).2 ?_ ?_
        · rcases working_get (row := row) (show (S.view i).client = .idle from hp i) with h1 | h1
          · exact .inl h1
          · exact .inr (.inr h1)
        · rw [step_call (s := S.view i) (hp i)]
          exact congrArg some (get_frame (S.view i) row rest').1
        · rw [hleft, ht]; simp [ops, own, isInit]
        · intro j hj
          rw [hleft, ht]
          simp only [ops, if_neg (Ne.symm hj)]
      | close =>
        simp only [ht] at e
        injection e with e
        subst e
        refine good_pc h (fun j => ⟨fun hj => absurd hj (Nat.not_lt_zero _), fun _ => hp j⟩) rfl rfl hlive ?_ (.inl rfl) ?_
          (fun _ => trivial) (fun hx => ⟨(h.fresh hx).1, by simp⟩)
        · intro j
          rw [hu j]
          rfl
        · intro j
          rw [hleft, ht]
          unfold left
          simp [ops]
  | call i =>
    rw [hpc] at hp
    simp only [hpc, Option.map_eq_some_iff] at e
    obtain ⟨s, e, rfl⟩ := e
    have hin : inCall (S.view i).client = true := working_inCall hp.2
    obtain ⟨h1, h2⟩ := client_frame hin e []
    refine good_enter h ⟨rfl, rfl, rfl⟩ (not_over hpc (by simp) (by simp)) (by unfold final; rw [hpc]; exact id)
      (fun j => by unfold uninit; rw [hpc]) (working_step (s := S.view i) hp.2 e) hp.1 [] (by simp) (by simp) (.client (junk _))
      (fun rest => (client_frame hin e rest).1) h2 ?_ ?_
    · unfold left; rw [hpc]; rfl
    · intro j _; unfold left; rw [hpc]
  | init i row v m =>
    rw [hpc] at hp
    obtain ⟨hr, hrow, hp⟩ := hp
    have hlive : ¬ over S := not_over hpc (by simp) (by simp)
    have hu : ∀ j : Fin c, uninit S j = decide (m ≤ j) := fun j => by unfold uninit; rw [hpc]
    simp only [hpc] at e
    by_cases hm : m < c
    · rw [dif_pos hm, if_neg (by rw [(hp ⟨m, hm⟩).2]; simp)] at e
      injection e with e
      subst e
      have hrows : rows = 0 := by
        by_contra hx
        exact (h.fresh hx).2 i row v m hpc
      refine ⟨⟨hr, hrow, fun j => ?_⟩, fun j => ?_, fun hx => (hx hrows).elim⟩
      · by_cases hj : j = ⟨m, hm⟩
        · subst hj
          exact ⟨by rw [set_self]; exact (hp _).1, by rw [set_self]; exact (hp _).2⟩
        · rw [set_same S _ hj]
          exact hp j
      · obtain ⟨done, hd⟩ := h.cols j
        have hpc' : ∀ j', left ({ S.set ⟨m, hm⟩ (S.view ⟨m, hm⟩).start with pc := .init i row v (m + 1) } : MState P) j' =
            left S j' := by
          intro j'
          unfold left
          rw [hpc]
          rfl
        by_cases hj : j = ⟨m, hm⟩
        · subst hj
          have hno : Op.close ∉ done ++ [Op.otherInit row] := by
            intro hx
            rcases List.mem_append.mp hx with hx | hx
            · have := hd.ending hx
              unfold final at this
              rw [hpc] at this
              exact this
            · simp at hx
          refine ⟨done ++ [.otherInit row], alone_own hd [.otherInit row] (.client (junk _)) (fun rest => ?_) ?_
            (fun hx => (hlive hx).elim) ?_ (.inr hno) (fun hx => (hno hx).elim)⟩
          · have e1 : uninit S ⟨m, hm⟩ = true := by rw [hu]; simp
            have e2 : uninit ({ S.set ⟨m, hm⟩ (S.view ⟨m, hm⟩).start with pc := .init i row v (m + 1) } : MState P)
                ⟨m, hm⟩ = false := by
              unfold uninit; simp
            unfold proj
            rw [step_call (s := S.view ⟨m, hm⟩) (hp _).1, e1, e2]
            refine congrArg some ?_
            rw [if_pos rfl, if_neg (by simp), call_init (s := frame (S.view ⟨m, hm⟩) rest 0) rfl hrow (hp _).2]
            have hv : (({ S.set ⟨m, hm⟩ (S.view ⟨m, hm⟩).start with pc := .init i row v (m + 1) } : MState P)).view ⟨m, hm⟩ =
                (S.view ⟨m, hm⟩).start := view_set S rfl rfl rfl
            rw [hv, ← hr]
            rfl
          · exact ⟨[], by rw [hpc']; simp [own, isInit], .inr rfl⟩
          · intro q hq
            rcases List.mem_append.mp hq with hq | hq
            · exact hd.init q hq
            · simp only [List.mem_singleton, Op.otherInit.injEq] at hq
              subst hq
              exact ⟨hr.symm, hrow, hrows⟩
        · refine ⟨done, alone_other hd (set_same S _ hj) le_rfl rfl ?_ ⟨[], by rw [hpc', List.append_nil], .inr rfl⟩
            (fun hx => (hlive hx).elim) (fun hx => by unfold final at hx; rw [hpc] at hx; exact hx)⟩
          rw [hu]
          unfold uninit
          simp only
          have : j.val ≠ m := fun hx => hj (Fin.ext hx)
          congr 1
          exact propext ⟨fun _ => by omega, fun _ => by omega⟩
    · rw [dif_neg hm] at e
      injection e with e
      subst e
      refine good_pc h ⟨hr, hrow, hp⟩ rfl rfl hlive ?_ (.inl rfl) ?_
        (fun hx => by unfold final at hx; rw [hpc] at hx; exact hx) (fun hx => ⟨(h.fresh hx).1, by simp⟩)
      · intro j
        rw [hu j]
        have : ¬ m ≤ j.val := by omega
        simp only [this, decide_false]
        rfl
      · intro j
        unfold left
        rw [hpc]
  | header i row v =>
    rw [hpc] at hp
    obtain ⟨hr, hrow, hp⟩ := hp
    simp only [hpc] at e
    injection e with e
    subst e
    have hs : startsBlocks (P i) (S.view i) row = false := by
      unfold startsBlocks
      have : (S.view i).rowsPerBlock ≠ 0 := by rw [show (S.view i).rowsPerBlock = S.rowsPerBlock from rfl, hr]; exact hrow
      simp [this]
    refine good_enter h ⟨rfl, rfl, rfl⟩ (not_over hpc (by simp) (by simp)) (by unfold final; rw [hpc]; exact id)
      (fun j => by unfold uninit; rw [hpc]) (working_put hs (hp i).1) (fun j _ => (hp j).1) [.put row v]
      (by simp) (by simp) (.client (junk i)) (fun rest' => ?_) (put_frame hs []).2 ?_ ?_
    · rw [step_call (s := S.view i) (hp i).1]
      exact congrArg some (put_frame hs rest').1
    · unfold left; rw [hpc]; simp [own, isInit]
    · intro j hj
      unfold left
      rw [hpc]
      simp only [dif_neg (Ne.symm hj), List.nil_append]
  | close m =>
    rw [hpc] at hp
    have hlive : ¬ over S := not_over hpc (by simp) (by simp)
    have hu : ∀ j : Fin c, uninit S j = false := fun j => by unfold uninit; rw [hpc]
    simp only [hpc] at e
    by_cases hm : m < c
    · rw [dif_pos hm] at e
      injection e with e
      subst e
      have hcl := (hp ⟨m, hm⟩).2 le_rfl
      obtain ⟨_, hsh⟩ := close_frame (p := P ⟨m, hm⟩) (S.view ⟨m, hm⟩) []
      refine ⟨⟨?_, fun j => ?_⟩, fun j => ?_, fun hx => ⟨(h.fresh hx).1, by simp⟩⟩
      · rw [set_self]; exact stopping_close
      · constructor
        · intro hj
          rw [set_same S _ (fun hx => by rw [hx] at hj; exact absurd hj (lt_irrefl _))]
          exact (hp j).1 hj
        · intro hj
          rw [set_same S _ (fun hx => by rw [hx] at hj; exact absurd hj (lt_irrefl _))]
          exact (hp j).2 (le_of_lt hj)
      · obtain ⟨done, hd⟩ := h.cols j
        by_cases hj : j = ⟨m, hm⟩
        · subst hj
          refine ⟨done ++ [.close], alone_own hd [.close] (.client (junk _)) (fun rest => ?_) ?_
            (fun hx => (hlive hx).elim) ?_ (.inl (by simp)) (fun _ => by unfold final; trivial)⟩
          · unfold proj
            rw [step_call (s := S.view ⟨m, hm⟩) hcl]
            refine congrArg some ?_
            have hv : ({ S.set ⟨m, hm⟩ (State.call (P ⟨m, hm⟩) (S.view ⟨m, hm⟩) .close) with pc := .closing ⟨m, hm⟩ } : MState P).view
                ⟨m, hm⟩ = State.call (P ⟨m, hm⟩) (S.view ⟨m, hm⟩) .close :=
              view_set S (by rw [hsh.rpb]; rfl) (by rw [hsh.locked]; rfl) (by rw [hsh.todo]; rfl)
            rw [hv, hu]
            exact (close_frame (p := P ⟨m, hm⟩) (S.view ⟨m, hm⟩) rest).1
          · refine ⟨[], ?_, .inr rfl⟩
            unfold left
            rw [hpc]
            simp [own, isInit, MState.set]
          · intro q hq
            rcases List.mem_append.mp hq with hq | hq
            · exact hd.init q hq
            · simp at hq
        · refine ⟨done, alone_other hd (set_same S _ hj) ?_ rfl ?_ ⟨[], ?_, .inr rfl⟩ (fun hx => (hlive hx).elim)
            (fun _ => trivial)⟩
          · show S.nBlocks ≤ (State.call (P ⟨m, hm⟩) (S.view ⟨m, hm⟩) .close).nBlocks
            rw [hsh.nBlocks]
            exact le_rfl
          · rw [hu]; rfl
          · have : j.val ≠ m := fun hx => hj (Fin.ext hx)
            have hx : ((⟨m, hm⟩ : Fin c) < j) = (m ≤ j.val) := propext
              ⟨fun hx => le_of_lt hx, fun hx => show m < j.val from by omega⟩
            rw [List.append_nil]
            unfold left
            rw [hpc]
            simp only [hx, MState.set]
    · rw [dif_neg hm] at e
      injection e with e
      subst e
      refine good_pc h (fun j => (hp j).1 (by omega)) rfl rfl hlive ?_ (.inl rfl) ?_ (fun _ => trivial)
        (fun hx => ⟨(h.fresh hx).1, by simp⟩)
      · intro j
        rw [hu j]
        rfl
      · intro j
        unfold left
        rw [hpc]
        have : ¬ m ≤ j.val := by omega
        simp [this]
  | closing i =>
    rw [hpc] at hp
    have hlive : ¬ over S := not_over hpc (by simp) (by simp)
    have hu : ∀ j : Fin c, uninit S j = false := fun j => by unfold uninit; rw [hpc]
    simp only [hpc, Option.map_eq_some_iff] at e
    obtain ⟨s, e, hS⟩ := e
    have hin : inCall (S.view i).client = true := stopping_inCall hp.1
    obtain ⟨_, hsh⟩ := client_frame hin e []
    have hst := stopping_step (p := P i) (s := S.view i) hp.1 e
    have hpc' : (s.client = .closed ∧ S'.pc = .close (i + 1)) ∨ (s.client = .failed ∧ S'.pc = .failed) ∨
        (s.client = .unsupported ∧ S'.pc = .unsupported) ∨
        (stopping s.client = true ∧ S'.pc = .closing i) := by
      rw [← hS]
      rcases hst with h1 | h1 | h1 | h1
      · exact .inl ⟨h1, by simp only [h1]⟩
      · exact .inr (.inl ⟨h1, by simp only [h1]⟩)
      · exact .inr (.inr (.inl ⟨h1, by simp only [h1]⟩))
      · refine .inr (.inr (.inr ⟨h1, ?_⟩))
        simp only
        split
        · rename_i h2; rw [h2] at h1; cases h1
        · rename_i h2; rw [h2] at h1; cases h1
        · rename_i h2; rw [h2] at h1; cases h1
        · rfl
    have hcols : S'.cols = (S.set i s).cols := by rw [← hS]
    have hnb : S'.nBlocks = S.nBlocks := by rw [← hS]; exact hsh.nBlocks
    have hrpb : S'.rowsPerBlock = S.rowsPerBlock := by rw [← hS]; rfl
    have htodo : S'.todo = S.todo := by rw [← hS]; rfl
    have hv : S'.view i = s := by
      rw [← hS]
      exact view_set S (by rw [hsh.rpb]; rfl) (by rw [hsh.locked]; rfl) (by rw [hsh.todo]; rfl)
    have hu' : ∀ j, uninit S' j = false := by
      intro j
      unfold uninit
      rcases hpc' with ⟨_, h1⟩ | ⟨_, h1⟩ | ⟨_, h1⟩ | ⟨_, h1⟩ <;> rw [h1]
    have hl : ∀ j, ∃ tail, left S' j ++ tail = left S j ∧ (over S' ∨ tail = []) := by
      intro j
      rcases hpc' with ⟨_, h1⟩ | ⟨_, h1⟩ | ⟨_, h1⟩ | ⟨_, h1⟩
      · refine ⟨[], ?_, .inr rfl⟩
        unfold left
        rw [hpc, h1, htodo, List.append_nil]
        have : (i.val + 1 ≤ j.val) = (i < j) := rfl
        simp only [this]
      · exact ⟨left S j, by unfold left; rw [h1]; rfl, .inl (.inl h1)⟩
      · exact ⟨left S j, by unfold left; rw [h1]; rfl, .inl (.inr h1)⟩
      · refine ⟨[], ?_, .inr rfl⟩
        unfold left
        rw [hpc, h1, htodo, List.append_nil]
    have hfin' : final S' := by
      unfold final
      rcases hpc' with ⟨_, h1⟩ | ⟨_, h1⟩ | ⟨_, h1⟩ | ⟨_, h1⟩ <;> rw [h1] <;> trivial
    refine ⟨?_, fun j => ?_, fun hx => ⟨hrpb.trans (h.fresh hx).1, fun i' row v m => ?_⟩⟩
    · unfold Place
      rw [hcols]
      have hother : ∀ j : Fin c, j ≠ i → ((S.set i s).cols j).client = (S.cols j).client := fun j hj => by
        rw [set_same S s hj]
      have hrest : resting s.client = true → ∀ j, resting ((S.set i s).cols j).client = true := by
        intro hx j
        by_cases hj : j = i
        · subst hj; rw [set_self]; exact hx
        · rw [hother j hj]
          have : j.val ≠ i.val := fun hx => hj (Fin.ext hx)
          rcases lt_or_gt_of_ne this with h1 | h1
          · rw [(hp.2 j).1 h1]; rfl
          · rw [(hp.2 j).2 h1]; rfl
      rcases hpc' with ⟨hcl, h1⟩ | ⟨hcl, h1⟩ | ⟨hcl, h1⟩ | ⟨hcl, h1⟩
      · rw [h1]
        intro j
        by_cases hj : j = i
        · subst hj
          exact ⟨fun _ => by rw [set_self]; exact hcl, fun hx => absurd hx (by omega)⟩
        · have : j.val ≠ i.val := fun hx => hj (Fin.ext hx)
          rw [hother j hj]
          exact ⟨fun hx => (hp.2 j).1 (by omega), fun hx => (hp.2 j).2 (by omega)⟩
      · rw [h1]
        exact ⟨hrest (by rw [hcl]; rfl), i, by rw [set_self, hcl]⟩
      · rw [h1]
        exact ⟨hrest (by rw [hcl]; rfl), i, by rw [set_self, hcl]⟩
      · rw [h1]
        refine ⟨by rw [set_self]; exact hcl, fun j => ?_⟩
        by_cases hj : j = i
        · subst hj
          exact ⟨fun hx => absurd hx (lt_irrefl _), fun hx => absurd hx (lt_irrefl _)⟩
        · rw [hother j hj]
          exact hp.2 j
    · obtain ⟨done, hd⟩ := h.cols j
      by_cases hj : j = i
      · subst hj
        refine ⟨done ++ [], alone_own hd [] (.client (junk j)) (fun rest => ?_) (hl j) (fun hx => (hlive hx).elim) ?_
          (.inl (by simp)) (fun _ => hfin')⟩
        · unfold proj
          rw [hv, hu, hu', hrpb]
          exact (client_frame hin e rest).1
        · intro m hm
          rw [List.append_nil] at hm
          rw [hrpb]
          exact hd.init m hm
      · refine ⟨done, alone_other hd ?_ (by rw [hnb]) hrpb (by rw [hu, hu']) (hl j) (fun hx => (hlive hx).elim)
          (fun _ => hfin')⟩
        rw [hcols, set_same S s hj]
    · rcases hpc' with ⟨_, h1⟩ | ⟨_, h1⟩ | ⟨_, h1⟩ | ⟨_, h1⟩ <;> rw [h1] <;> simp
  | closed => rw [hpc] at e; cases e
  | failed => rw [hpc] at e; cases e
  | unsupported => rw [hpc] at e; cases e

end Dysco.Multi
