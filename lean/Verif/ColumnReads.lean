import Verif.ColumnProps

/-! # What reads and partial rewrites of a block see -/

namespace Dysco.Col
variable {V K : Type} {n : Nat} {p : Params V K}

/-- A buffer that was not changed since it was read holds what the file holds for its block. -/
def Clean (p : Params V K) (s : State V K n) : Prop :=
  s.changed = false → s.current ≠ noBlock →
    s.cache.has s.current = false ∧ s.current < s.nBlocks ∧ 
    ∀ r, s.file s.current = some r → s.buffer = p.dec s.current (s.timesWritten s.current) r

/-- Before a read, the block is in the file and not in the cache. -/
def ReadyFor (s : State V K n) : Next V → Prop
  | .get row => row / s.rowsPerBlock < s.nBlocks ∧ s.cache.has (row / s.rowsPerBlock) = false
  | .put _ _ => True

/-- Invariant: the buffer holds what a read has to give, by the place of the client. Not in the code. -/
def ReadOK (p : Params V K) (s : State V K n) : Prop :=
  match s.client with
  | .idle => Clean p s
  | .getLock row | .getWait row => row / s.rowsPerBlock < s.nBlocks ∧ Clean p s
  | .store (.load k) | .storeWait (.load k) | .load k =>
    k.row / s.rowsPerBlock ≠ s.current ∧ ReadyFor s k
  | _ => True

theorem readOK_access {s : State V K n} (hc : Clean p s) {k : Next V} (hk : ReadyFor s k) :
    ReadOK p (s.access k) := by
  unfold State.access
  split
  · rename_i hne
    cases k with
    | put row v => split <;> exact ⟨hne, trivial⟩
    | get row => split <;> exact ⟨hne, hk⟩
  · cases k with
    | put row v => intro hx; cases hx
    | get row => exact hc

theorem readOK_call {s : State V K n} (hid : s.client = .idle) (hc : Clean p s) (op : Op V) :
    ReadOK p (State.call p s op) := by
  have idle : ∀ s' : State V K n, s'.client = .idle → Clean p s' → ReadOK p s' := by
    intro s' h1 h2
    unfold ReadOK
    rw [h1]
    exact h2
  cases op with
  | put row v =>
    simp only [State.call]
    unfold State.put
    split
    · exact readOK_access hc trivial
    · split
      · exact idle _ hid (fun hx => by cases hx)
      · split
        · split
          · trivial
          · split
            · trivial
            · exact readOK_access (s := ({ s with rowsPerBlock := row } : State V K n).start) hc trivial
        · exact idle _ hid (fun hx => by cases hx)
  | get row =>
    simp only [State.call]
    unfold State.get
    split
    · exact idle _ hid hc
    · split
      · exact idle _ hid hc
      · rename_i hb
        exact ⟨by simp only; omega, hc⟩
  | close => simp only [State.call]; split <;> trivial
  | addColumn =>
    simp only [State.call]
    split
    · exact idle _ hid hc
    · trivial
  | otherInit rows =>
    simp only [State.call]
    split
    · exact idle _ hid hc
    · split
      · trivial
      · split
        · trivial
        · exact idle _ hid hc

/-- `ReadOK` only needs that blocks leave the cache, that the file grows, and that blocks which are not in the
cache stay as they are. -/
theorem readOK_mono {s s' : State V K n} (h : ReadOK p s) (e1 : s'.client = s.client)
    (e2 : s'.rowsPerBlock = s.rowsPerBlock) (e3 : s'.current = s.current) (e4 : s'.changed = s.changed)
    (e5 : s'.buffer = s.buffer) (e6 : s.nBlocks ≤ s'.nBlocks)
    (e7 : ∀ b, s.cache.has b = false → s'.cache.has b = false)
    (e8 : ∀ b, s.cache.has b = false → s'.file b = s.file b ∧ s'.timesWritten b = s.timesWritten b) : ReadOK p s' := by
  have hclean : Clean p s → Clean p s' := by
    unfold Clean
    rw [e3, e4, e5]
    intro hc h1 h2
    obtain ⟨a1, a2, a3⟩ := hc h1 h2
    exact ⟨e7 _ a1, lt_of_lt_of_le a2 e6, by rw [(e8 _ a1).1, (e8 _ a1).2]; exact a3⟩
  have hready : ∀ k, ReadyFor s k → ReadyFor s' k := by
    intro k hk
    cases k with
    | put row v => trivial
    | get row =>
      simp only [ReadyFor] at hk ⊢
      rw [e2]
      exact ⟨lt_of_lt_of_le hk.1 e6, e7 _ hk.2⟩
  unfold ReadOK at h ⊢
  rw [e1]
  match hpc : s.client with
  | .idle => simp only [hpc] at h ⊢; exact hclean h
  | .getLock row | .getWait row =>
    simp only [hpc] at h ⊢
    rw [e2]
    exact ⟨lt_of_lt_of_le h.1 e6, hclean h.2⟩
  | .store (.load k) | .storeWait (.load k) | .load k =>
    simp only [hpc] at h ⊢
    rw [e2, e3]
    exact ⟨h.1, hready _ h.2⟩
  | .store .stop | .storeWait .stop | .stopLock | .stopWait | .join | .closed | .failed | .prepStart
  | .prepLock | .prepWait | .prepJoin | .unsupported => trivial

theorem readOK_wake {s s' : State V K n} (h : ReadOK p s) (e1 : s'.client = s.client.wake)
    (e2 : s'.rowsPerBlock = s.rowsPerBlock) (e3 : s'.current = s.current) (e4 : s'.changed = s.changed)
    (e5 : s'.buffer = s.buffer) (e6 : s'.nBlocks = s.nBlocks) (e7 : s'.cache = s.cache) (e8 : s'.file = s.file)
    (e9 : s'.writes = s.writes) :
    ReadOK p s' := by
  have h' : ReadOK p { s with client := s.client.wake } := by
    unfold ReadOK at h ⊢
    match hpc : s.client with
    | .idle => simp only [hpc, ClientPC.wake] at h ⊢; exact h
    | .getLock row | .getWait row => simp only [hpc, ClientPC.wake] at h ⊢; exact h
    | .store (.load k) => simp only [hpc, ClientPC.wake] at h ⊢; exact ⟨h.1, by cases k <;> exact h.2⟩
    | .storeWait (.load k) => simp only [hpc, ClientPC.wake] at h ⊢; exact ⟨h.1, by cases k <;> exact h.2⟩
    | .load k => simp only [hpc, ClientPC.wake] at h ⊢; exact ⟨h.1, by cases k <;> exact h.2⟩
    | .store .stop | .storeWait .stop | .stopLock | .stopWait | .join | .closed | .failed | .prepStart
    | .prepLock | .prepWait | .prepJoin | .unsupported => trivial
  exact readOK_mono h' e1 e2 e3 e4 e5 e6.ge (fun b hb => by rw [e7]; exact hb) (fun b _ => by unfold State.timesWritten; rw [e8, e9]; exact ⟨rfl, rfl⟩)

theorem has_insert (c : Cache V) (b b' : Nat) (r : Rows V) (h : b' ≠ b) : (c.insert b r).has b' = c.has b' := by
  rw [Bool.eq_iff_iff, has_iff, has_iff]
  constructor
  · rintro ⟨it, hit⟩
    rcases (mem_insert _ _ _ _).mp hit with h1 | h1
    · injection h1 with h1 _; exact absurd h1 h
    · exact ⟨it, h1⟩
  · rintro ⟨it, hit⟩
    exact ⟨it, (mem_insert _ _ _ _).mpr (Or.inr hit)⟩

theorem readOK_client {s s' : State V K n} {junk : Nat → V} (h : ReadOK p s)
    (e : clientStep p s junk = some s') : ReadOK p s' := by
  unfold ReadOK at h
  unfold clientStep at e
  match hpc : s.client with
  | .idle =>
    simp only [hpc] at e h
    cases ht : s.todo with
    | nil => rw [ht] at e; cases e
    | cons op rest =>
      rw [ht] at e
      injection e with e
      subst e
      exact readOK_call (s := { s with client := .idle, todo := rest }) rfl h op
  | .store k =>
    simp only [hpc] at e h
    injection e with e
    subst e
    unfold State.storeBlock
    split
    · trivial
    · split
      · cases k with
        | stop => trivial
        | load k => exact ⟨h.1, by cases k <;> exact h.2⟩
      · cases k with
        | stop => trivial
        | load k =>
          refine ⟨h.1, ?_⟩
          cases k with
          | put row v => trivial
          | get row =>
            refine ⟨h.2.1, ?_⟩
            exact (has_insert s.cache s.current (row / s.rowsPerBlock) s.buffer h.1).trans h.2.2
  | .getLock row =>
    simp only [hpc] at e h
    split at e
    · injection e with e
      subst e
      exact h
    · rename_i hx
      injection e with e
      rw [← e]
      exact readOK_access h.2 ⟨h.1, by simpa using hx⟩
  | .load k =>
    simp only [hpc] at e h
    injection e with e
    subst e
    cases k with
    | put row v => intro hx; cases hx
    | get row =>
      intro _ _
      refine ⟨h.2.2, h.2.1, ?_⟩
      intro r hr
      have hr : s.file (row / s.rowsPerBlock) = some r := hr
      have hb : row / s.rowsPerBlock < s.nBlocks := h.2.1
      show (if row / s.rowsPerBlock < s.nBlocks then _ else _) = _
      rw [if_pos hb]
      simp only [Next.row, hr]
      rfl
  | .stopLock =>
    simp only [hpc] at e
    split at e
    · split at e <;> (injection e with e; subst e; trivial)
    · split at e <;> (injection e with e; subst e; trivial)
  | .join =>
    simp only [hpc] at e
    split at e
    · injection e with e; subst e; trivial
    · cases e
  | .prepStart => simp only [hpc] at e; injection e with e; subst e; trivial
  | .prepLock =>
    simp only [hpc] at e
    split at e
    · split at e <;> (injection e with e; subst e; trivial)
    · split at e <;> (injection e with e; subst e; trivial)
  | .prepJoin =>
    simp only [hpc] at e
    split at e
    · injection e with e
      split at e
      · subst e
        exact fun _ hx => absurd rfl hx
      · subst e
        exact fun _ hx => absurd rfl hx
    · cases e
  | .prepWait | .storeWait k | .getWait row | .stopWait | .closed | .failed | .unsupported =>
    simp only [hpc] at e; cases e

theorem has_remove (c : Cache V) (b b' : Nat) (h : c.has b' = false) : (c.remove b).has b' = false := by
  rw [has_false] at h ⊢
  intro it hit
  exact h it ((mem_remove _ _ _).mp hit).1

theorem readOK_step {f : Nat → Option (Rows V)} {s s' : State V K p.threads} (hinv : Inv p f s) (h : ReadOK p s)
    {l : Label V p.threads} (e : step p s l = some s') : ReadOK p s' := by
  cases l with
  | client junk => exact readOK_client h e
  | thread i =>
    simp only [step] at e
    have hseek : ReadOK p (s.seek i) := by
      unfold State.seek
      split
      · exact readOK_mono h rfl rfl rfl rfl rfl le_rfl (fun b hb => by rw [has_take]; exact hb) (fun _ _ => ⟨rfl, rfl⟩)
      · exact readOK_mono h rfl rfl rfl rfl rfl le_rfl (fun b hb => hb) (fun _ _ => ⟨rfl, rfl⟩)
    unfold threadStep at e
    cases ht : s.threads i with
    | head =>
      simp only [ht] at e
      split at e
      · injection e with e; subst e
        exact readOK_mono h rfl rfl rfl rfl rfl le_rfl (fun b hb => hb) (fun _ _ => ⟨rfl, rfl⟩)
      · injection e with e; subst e; exact hseek
    | woken => simp only [ht] at e; injection e with e; subst e; exact hseek
    | encode b r =>
      simp only [ht] at e
      split at e
      · cases e
      · injection e with e
        subst e
        refine readOK_mono h rfl rfl rfl rfl rfl ?_ (fun b hb => hb) ?_
        · simp only; split <;> omega
        · intro b' hb'
          have hm := hinv.core.encoding i b r ht
          have : b' ≠ b := by
            rintro rfl
            exact (has_false _ _).mp hb' _ hm
          refine ⟨if_neg this, ?_⟩
          simp only [State.timesWritten, List.countP_append, List.countP_singleton]
          rw [if_neg (by simpa using Ne.symm this), Nat.add_zero]
    | written b =>
      simp only [ht] at e
      injection e with e
      subst e
      have h1 : ReadOK p ({ s with cache := s.cache.remove b, threads := Function.update s.threads i .head } :
          State V K p.threads) :=
        readOK_mono h rfl rfl rfl rfl rfl le_rfl (fun b' hb => has_remove _ _ _ hb) (fun _ _ => ⟨rfl, rfl⟩)
      exact readOK_wake h1 rfl rfl rfl rfl rfl rfl rfl rfl rfl
    | wait => simp only [ht] at e; cases e
    | done => simp only [ht] at e; cases e
  | spuriousThread i =>
    injection e with e; subst e
    exact readOK_mono h rfl rfl rfl rfl rfl le_rfl (fun b hb => hb) (fun _ _ => ⟨rfl, rfl⟩)
  | spuriousClient => injection e with e; subst e; exact readOK_wake h rfl rfl rfl rfl rfl rfl rfl rfl rfl
  | others m =>
    simp only [step] at e
    split at e
    · cases e
    · injection e with e; subst e
      refine readOK_mono h rfl rfl rfl rfl rfl ?_ (fun b hb => hb) (fun _ _ => ⟨rfl, rfl⟩)
      simp only; split <;> omega

theorem reachable_readOK (hn : 0 < p.threads) {k : K} {rows nBlocks : Nat}
    {file : Nat → Option (Rows V)} {todo : List (Op V)} {s : State V K p.threads}
    (h : Reachable p (initial p k rows file nBlocks todo) s) : ReadOK p s := by
  obtain ⟨ls, e⟩ := h
  exact (run_induct (P := fun s => Inv p (fileAt rows file) s ∧ ReadOK p s)
    (fun s l s' hs he => ⟨step_inv hs.1 hn he, readOK_step hs.1 hs.2 he⟩)
    ⟨initial_inv hn k rows file nBlocks todo, fun _ hx => absurd rfl hx⟩ e).2

/-- The rows that were last handed to the cache for a block, or else those that were in the file when the
column was opened. -/
def lastStored (file0 : Nat → Option (Rows V)) (s : State V K n) (b : Nat) : Option (Rows V) :=
  ((ofBlock s.stores b).getLast?).or (file0 b)

theorem file_lastStored {f : Nat → Option (Rows V)} {s : State V K n} (h : Core p f s) {b : Nat}
    (hb : s.cache.has b = false) : s.file b = lastStored f s b := by
  rw [h.file b, lastStored, h.settled b (Or.inl hb)]

/-! ## C47 -/

theorem access_put_outs (s : State V K n) (r : Nat) (v : V) : (s.access (.put r v)).outs = s.outs := by
  unfold State.access
  split
  · split <;> rfl
  · rfl

theorem access_get_outs (s : State V K n) (r : Nat) : (s.access (.get r)).outs = s.outs ∨
    r / s.rowsPerBlock = s.current ∧
      (s.access (.get r)).outs = s.outs ++ [(r, s.buffer.getData (r % s.rowsPerBlock))] := by
  unfold State.access
  split
  · left; split <;> rfl
  · rename_i hb
    right
    exact ⟨by simpa [Next.row] using hb, rfl⟩

theorem call_outs (s : State V K n) (op : Op V) : (State.call p s op).outs = s.outs ∨
    ∃ r, op = .get r ∧ (s.rowsPerBlock = 0 ∨ s.nBlocks ≤ r / s.rowsPerBlock) ∧
      (State.call p s op).outs = s.outs ++ [(r, .zero)] := by
  cases op with
  | put row v =>
    left
    simp only [State.call]
    unfold State.put
    split
    · exact access_put_outs _ _ _
    · split
      · rfl
      · split
        · split
          · rfl
          · split
            · rfl
            · exact access_put_outs _ _ _
        · rfl
  | get row =>
    simp only [State.call]
    unfold State.get
    split
    · rename_i h1
      exact Or.inr ⟨row, rfl, Or.inl h1, rfl⟩
    · split
      · rename_i h2
        exact Or.inr ⟨row, rfl, Or.inr h2, rfl⟩
      · exact Or.inl rfl
  | close => left; simp only [State.call]; split <;> rfl
  | addColumn => left; simp only [State.call]; split <;> rfl
  | otherInit rows =>
    left
    simp only [State.call]
    split
    · rfl
    · split
      · rfl
      · split <;> rfl

/-- The steps that return a result. -/
theorem step_outs {s s' : State V K p.threads} {l : Label V p.threads} (e : step p s l = some s') :
    s'.outs = s.outs ∨
    (∃ r, s.client = .idle ∧ (s.rowsPerBlock = 0 ∨ s.nBlocks ≤ r / s.rowsPerBlock) ∧
      s'.outs = s.outs ++ [(r, .zero)]) ∨
    (∃ r, s.client = .getLock r ∧ s.cache.has (r / s.rowsPerBlock) = false ∧ r / s.rowsPerBlock = s.current ∧
      s'.outs = s.outs ++ [(r, s.buffer.getData (r % s.rowsPerBlock))]) ∨
    (∃ r junk, s.client = .load (.get r) ∧
      s'.outs = s.outs ++ [(r, ((State.loadBlock p s (r / s.rowsPerBlock) junk).buffer).getData
        (r % s.rowsPerBlock))]) := by
  cases l with
  | client junk =>
    simp only [step] at e
    unfold clientStep at e
    cases hpc : s.client with
    | idle =>
      simp only [hpc] at e
      cases ht : s.todo with
      | nil => rw [ht] at e; cases e
      | cons op rest =>
        rw [ht] at e
        injection e with e
        subst e
        rcases call_outs (p := p) ({ s with client := .idle, todo := rest } : State V K p.threads) op with
          h1 | ⟨r, _, h2, h3⟩
        · exact Or.inl h1
        · exact Or.inr (Or.inl ⟨r, rfl, h2, h3⟩)
    | store k =>
      simp only [hpc] at e
      injection e with e
      subst e
      left
      unfold State.storeBlock
      split
      · rfl
      · split <;> rfl
    | getLock row =>
      simp only [hpc] at e
      split at e
      · injection e with e; subst e; exact Or.inl rfl
      · rename_i hx
        injection e with e
        rw [← e]
        rcases access_get_outs s row with h1 | ⟨h1, h2⟩
        · exact Or.inl h1
        · exact Or.inr (Or.inr (Or.inl ⟨row, rfl, by simpa using hx, h1, h2⟩))
    | load k =>
      simp only [hpc] at e
      injection e with e
      subst e
      cases k with
      | put row v => exact Or.inl rfl
      | get row => exact Or.inr (Or.inr (Or.inr ⟨row, junk, rfl, rfl⟩))
    | stopLock =>
      simp only [hpc] at e
      split at e
      · split at e <;> (injection e with e; subst e; exact Or.inl rfl)
      · split at e <;> (injection e with e; subst e; exact Or.inl rfl)
    | join =>
      simp only [hpc] at e
      split at e
      · injection e with e; subst e; exact Or.inl rfl
      · cases e
    | prepStart => simp only [hpc] at e; injection e with e; subst e; exact Or.inl rfl
    | prepLock =>
      simp only [hpc] at e
      split at e
      · split at e <;> (injection e with e; subst e; exact Or.inl rfl)
      · split at e <;> (injection e with e; subst e; exact Or.inl rfl)
    | prepJoin =>
      simp only [hpc] at e
      split at e
      · injection e with e
        split at e <;> (subst e; exact Or.inl rfl)
      · cases e
    | prepWait => simp only [hpc] at e; cases e
    | storeWait k => simp only [hpc] at e; cases e
    | getWait row => simp only [hpc] at e; cases e
    | stopWait => simp only [hpc] at e; cases e
    | closed => simp only [hpc] at e; cases e
    | failed => simp only [hpc] at e; cases e
    | unsupported => simp only [hpc] at e; cases e
  | thread i =>
    left
    simp only [step] at e
    have hseek : (s.seek i).outs = s.outs := by
      unfold State.seek
      split <;> rfl
    unfold threadStep at e
    cases ht : s.threads i with
    | head =>
      simp only [ht] at e
      split at e
      · injection e with e; subst e; rfl
      · injection e with e; subst e; exact hseek
    | woken => simp only [ht] at e; injection e with e; subst e; exact hseek
    | encode b r =>
      simp only [ht] at e
      split at e
      · cases e
      · injection e with e; subst e; rfl
    | written b => simp only [ht] at e; injection e with e; subst e; rfl
    | wait => simp only [ht] at e; cases e
    | done => simp only [ht] at e; cases e
  | spuriousThread i => injection e with e; subst e; exact Or.inl rfl
  | spuriousClient => injection e with e; subst e; exact Or.inl rfl
  | others m =>
    simp only [step] at e
    split at e
    · cases e
    · injection e with e; subst e; exact Or.inl rfl

theorem loadBlock_buffer {s : State V K n} {b : Nat} {junk : Nat → V} {r : Rows V} (hb : b < s.nBlocks)
    (hr : s.file b = some r) : (State.loadBlock p s b junk).buffer = p.dec b (s.timesWritten b) r := by
  simp only [State.loadBlock]
  rw [if_pos hb, hr]

/-- Every read of a row returns

* zero, if the rows per block are not known or the block is not counted in the file; or
* otherwise, at a moment at which the block is not in the write cache: the row of the buffer, if the block is
  the current one and was changed; else the row as decoded from the last store of the block (or from what was
  in the file when the column was opened). -/
theorem read_result (hn : 0 < p.threads) {k : K} {rows nBlocks : Nat}
    {file : Nat → Option (Rows V)} {todo : List (Op V)} {s s' : State V K p.threads}
    (h : Reachable p (initial p k rows file nBlocks todo) s) {l : Label V p.threads}
    (e : step p s l = some s') {row : Nat} {res : Result V} (hr : row < noBlock)
    (ho : s'.outs = s.outs ++ [(row, res)]) :
    (res = .zero ∧ (s.rowsPerBlock = 0 ∨ s.nBlocks ≤ row / s.rowsPerBlock)) ∨
    (s.rowsPerBlock ≠ 0 ∧ row / s.rowsPerBlock < s.nBlocks ∧ s.cache.has (row / s.rowsPerBlock) = false ∧
      if row / s.rowsPerBlock = s.current ∧ s.changed = true then
        res = s.buffer.getData (row % s.rowsPerBlock)
      else ∀ r, lastStored (fileAt rows file) s (row / s.rowsPerBlock) = some r →
        res = (p.dec (row / s.rowsPerBlock) (s.timesWritten (row / s.rowsPerBlock)) r).getData (row % s.rowsPerBlock)) := by
  have hok := reachable_readOK hn h
  have hinv := initial_reachable_inv hn h
  have hcl := hinv.client
  have hinj : ∀ x : Nat × Result V, s'.outs = s.outs ++ [x] → x = (row, res) := by
    intro x hx
    rw [ho] at hx
    have := List.append_cancel_left hx
    injection this with h1
    exact h1.symm
  unfold ReadOK at hok
  unfold ClientOK at hcl
  rcases step_outs e with h1 | ⟨r, h1, h2, h3⟩ | ⟨r, h1, h2, h3, h4⟩ | ⟨r, junk, h1, h2⟩
  · rw [h1] at ho
    simp at ho
  · have := hinj _ h3
    injection this with e1 e2
    subst e1 e2
    exact Or.inl ⟨rfl, h2⟩
  · have := hinj _ h4
    injection this with e1 e2
    subst e1 e2
    rw [h1] at hok hcl
    refine Or.inr ⟨hcl.2, hok.1, h2, ?_⟩
    split
    · rfl
    · rename_i hx
      intro r' hr'
      rw [← file_lastStored hinv.core h2, h3] at hr'
      have hch : s.changed = false := by
        cases hc : s.changed with
        | false => rfl
        | true => exact absurd ⟨h3, hc⟩ hx
      have hnb : s.current ≠ noBlock := by
        rw [← h3]
        exact ne_of_lt (lt_of_le_of_lt (Nat.div_le_self _ _) hr)
      rw [(hok.2 hch hnb).2.2 r' hr', h3]
  · have := hinj _ h2
    injection this with e1 e2
    subst e1 e2
    rw [h1] at hok hcl
    refine Or.inr ⟨hcl.2, hok.2.1, hok.2.2, ?_⟩
    rw [if_neg (fun hx => hok.1 hx.1)]
    intro r' hr'
    rw [← file_lastStored hinv.core hok.2.2] at hr'
    rw [loadBlock_buffer hok.2.1 hr']

/-- While the block is in the cache, a read of one of its rows does not return: the client waits, and only
goes on waiting when it is woken. -/
theorem read_waits {s s' : State V K p.threads} {row : Nat} {junk : Nat → V}
    (hpc : s.client = .getLock row ∨ s.client = .getWait row) (hb : s.cache.has (row / s.rowsPerBlock) = true)
    (e : step p s (.client junk) = some s') : s'.client = .getWait row ∧ s'.outs = s.outs := by
  simp only [step] at e
  unfold clientStep at e
  rcases hpc with hpc | hpc
  · simp only [hpc] at e
    rw [if_pos hb] at e
    injection e with e
    subst e
    exact ⟨rfl, rfl⟩
  · simp only [hpc] at e
    cases e

/-! ## C48 -/

/-- Before the rows per block are known, a read returns zero. -/
theorem get_unknown {s : State V K p.threads} {row : Nat} {rest : List (Op V)} (hid : s.client = .idle)
    (ht : s.todo = .get row :: rest) (hr : s.rowsPerBlock = 0) (junk : Nat → V) :
    step p s (.client junk) = some { s with todo := rest, outs := s.outs ++ [(row, .zero)] } := by
  simp only [step, clientStep, hid, ht, State.call, State.get, hr, if_true]

/-- A read of a block that is not counted in the file returns zero. -/
theorem get_uncounted {s : State V K p.threads} {row : Nat} {rest : List (Op V)} (hid : s.client = .idle)
    (ht : s.todo = .get row :: rest) (hr : s.nBlocks ≤ row / s.rowsPerBlock) (junk : Nat → V) :
    step p s (.client junk) = some { s with todo := rest, outs := s.outs ++ [(row, .zero)] } := by
  simp only [step, clientStep, hid, ht, State.call, State.get, hr, if_true, ite_self]

/-- A row that is put before the rows per block are known, and read at once, reads as zero although the
buffer holds it. -/
theorem put_get_unknown {s s1 s2 : State V K p.threads} {row : Nat} {v : V} {rest : List (Op V)}
    {junk : Nat → V} (hid : s.client = .idle) (ht : s.todo = .put row v :: .get row :: rest)
    (hr : s.rowsPerBlock = 0) (hk : s.buffer.len = 0 ∨ p.differs (p.key row) s.last = false)
    (e1 : step p s (.client junk) = some s1) (e2 : step p s1 (.client junk) = some s2) :
    s2.outs = s.outs ++ [(row, .zero)] ∧ s2.buffer.get row = some v ∧ s2.changed = true := by
  have h1 : s1.client = .idle ∧ s1.todo = .get row :: rest ∧ s1.rowsPerBlock = 0 ∧ s1.outs = s.outs ∧
      s1.buffer.get row = some v ∧ s1.changed = true := by
    simp only [step, clientStep, hid, ht, State.call, State.put, hr, ne_eq, not_true_eq_false, if_false] at e1
    injection e1 with e1
    split at e1
    · subst e1
      exact ⟨rfl, rfl, rfl, rfl, by simp [Rows.set], rfl⟩
    · rename_i hl
      rw [if_neg (by rw [hk.resolve_left hl]; simp)] at e1
      subst e1
      exact ⟨rfl, rfl, rfl, rfl, by simp [Rows.set], rfl⟩
  obtain ⟨a1, a2, a3, a4, a5, a6⟩ := h1
  rw [get_unknown a1 a2 a3] at e2
  injection e2 with e2
  subst e2
  exact ⟨by rw [← a4], a5, a6⟩

/-- The same for a row of the current block, while that block is not counted in the file. -/
theorem put_get_uncounted {s s1 s2 : State V K p.threads} {row : Nat} {v : V} {rest : List (Op V)}
    {junk : Nat → V} (hid : s.client = .idle) (ht : s.todo = .put row v :: .get row :: rest)
    (hr : s.rowsPerBlock ≠ 0) (hb : row / s.rowsPerBlock = s.current) (hf : s.nBlocks ≤ s.current)
    (e1 : step p s (.client junk) = some s1) (e2 : step p s1 (.client junk) = some s2) :
    s2.outs = s.outs ++ [(row, .zero)] ∧ s2.buffer.get (row % s.rowsPerBlock) = some v ∧ s2.changed = true := by
  have h1 : s1.client = .idle ∧ s1.todo = .get row :: rest ∧ s1.nBlocks ≤ row / s1.rowsPerBlock ∧
      s1.outs = s.outs ∧ s1.buffer.get (row % s.rowsPerBlock) = some v ∧ s1.changed = true := by
    simp only [step, clientStep, hid, ht, State.call, State.put, State.access, hr, ne_eq, not_false_eq_true, if_true,
      Next.row, hb, not_true_eq_false, if_false] at e1
    injection e1 with e1
    subst e1
    refine ⟨rfl, rfl, ?_, rfl, by simp [Rows.set, State.finish], rfl⟩
    show s.nBlocks ≤ row / s.rowsPerBlock
    omega
  obtain ⟨a1, a2, a3, a4, a5, a6⟩ := h1
  rw [get_uncounted a1 a2 a3] at e2
  injection e2 with e2
  subst e2
  exact ⟨by rw [← a4], a5, a6⟩

/-! ## C49 -/

/-- Re-opening a block that is counted in the file and not in the cache: all other rows keep the value of
the last store. -/
theorem reopen_keeps (hn : 0 < p.threads) {k : K} {rows nBlocks : Nat}
    {file : Nat → Option (Rows V)} {todo : List (Op V)} {s s' : State V K p.threads}
    (h : Reachable p (initial p k rows file nBlocks todo) s) {row : Nat} {v : V} {junk : Nat → V}
    (hpc : s.client = .load (.put row v)) (hc : s.cache.has (row / s.rowsPerBlock) = false)
    (hb : row / s.rowsPerBlock < s.nBlocks) {r : Rows V}
    (hl : lastStored (fileAt rows file) s (row / s.rowsPerBlock) = some r)
    (e : step p s (.client junk) = some s') :
    s'.current = row / s.rowsPerBlock ∧ s'.changed = true ∧ s'.buffer.get (row % s.rowsPerBlock) = some v ∧
      ∀ j, j ≠ row % s.rowsPerBlock → j < (p.dec (row / s.rowsPerBlock) (s.timesWritten (row / s.rowsPerBlock)) r).len →
        s'.buffer.get j = (p.dec (row / s.rowsPerBlock) (s.timesWritten (row / s.rowsPerBlock)) r).get j := by
  have hinv := initial_reachable_inv hn h
  rw [← file_lastStored hinv.core hc] at hl
  simp only [step, clientStep, hpc] at e
  injection e with e
  subst e
  have hbuf := loadBlock_buffer (p := p) (junk := junk) hb hl
  refine ⟨rfl, rfl, ?_, ?_⟩
  · simp [State.finish, State.loadBlock, Rows.set, Next.row]
  · intro j hj hlen
    show (((State.loadBlock p s (row / s.rowsPerBlock) junk).buffer).set (row % s.rowsPerBlock) v).get j = _
    rw [hbuf]
    simp only [Rows.set]
    rw [if_neg hj, if_pos hlen]

/-- Re-opening a block always starts from the file, or from the buffer if the block is not counted in the
file; what is pending in the cache plays no role. -/
theorem reopen_ignores_cache {s s' : State V K p.threads} {row : Nat} {v : V} {junk : Nat → V}
    (hpc : s.client = .load (.put row v)) (e : step p s (.client junk) = some s') (c : Cache V) :
    step p { s with cache := c } (.client junk) = some { s' with cache := c } ∧
    (s.nBlocks ≤ row / s.rowsPerBlock → s'.buffer = s.buffer.set (row % s.rowsPerBlock) v) ∧
    (∀ r, row / s.rowsPerBlock < s.nBlocks → s.file (row / s.rowsPerBlock) = some r →
      s'.buffer = (p.dec (row / s.rowsPerBlock) (s.timesWritten (row / s.rowsPerBlock)) r).set (row % s.rowsPerBlock) v) := by
  simp only [step, clientStep, hpc] at e ⊢
  injection e with e
  subst e
  refine ⟨rfl, ?_, ?_⟩
  · intro hb
    show ((State.loadBlock p s (row / s.rowsPerBlock) junk).buffer).set _ v = _
    simp only [State.loadBlock]
    rw [if_neg (by omega)]
  · intro r hb hr
    show ((State.loadBlock p s (row / s.rowsPerBlock) junk).buffer).set (row % s.rowsPerBlock) v = _
    rw [loadBlock_buffer hb hr]

/-- A column with two rows per block and one encoder thread, for the witnesses. -/
def demo : Params Nat Nat where
  threads := 1
  maxCache := 2
  key := fun r => r / 2
  differs := fun a b => a != b
  dec := fun _ _ => id

/-- A reopened column with rows 10, 11 in block 0. Rows 0 and 1 are rewritten (20, 21), then row 2, then
row 0 again (30), while no encoder thread has run. -/
def lostProgram : List (Op Nat) := [.put 0 20, .put 1 21, .put 2 22, .put 0 30, .close]

/-- The file of the example: block 0 holds 10 and 11. Not in the code. -/
def lostFile : Nat → Option (Rows Nat) := fun b => if b = 0 then some ((Rows.empty.set 0 10).set 1 11) else none

/-- A step of the client. Not in the code. -/
def c : Label Nat 1 := .client fun _ => 0
/-- A step of the thread. Not in the code. -/
def t : Label Nat 1 := .thread 0

/-- After this schedule the column is closed and row 1, put as 21, is 11 again. -/
theorem lost_row :
    ((run demo (initial demo 0 2 lostFile 1 lostProgram)
        [c, c, c,  -- rows 0 and 1
         c, c, c,  -- row 2: store block 0, load block 1
         c, c, c,  -- row 0: store block 1, load block 0 from the file
         t, t, t, t, t, t,  -- write both blocks
         c, c, t, t, t,  -- close: store block 0 and write it
         t, c, t, c]).map fun s =>
      (match s.client with | .closed => true | _ => false,
        (s.file 0).map fun r => (r.get 0, r.get 1))) = some (true, some (some 30, some 11)) := by
  decide +kernel

/-! ## Examples: the hypotheses of the theorems above can be met -/

theorem reachable_of_run {s0 : State V K p.threads} {ls : List (Label V p.threads)} {A : Type}
    {g : State V K p.threads → A} {a : A} (h : (run p s0 ls).map g = some a) : ∃ s, Reachable p s0 s ∧ g s = a := by
  cases hr : run p s0 ls with
  | none => rw [hr] at h; cases h
  | some s =>
    rw [hr] at h
    injection h with h
    exact ⟨s, ⟨ls, hr⟩, h⟩

/-- A reachable state in which one block is encoded and another one is in the cache (C43, C44). -/
example : ∃ s, Reachable demo (initial demo 0 2 lostFile 1 lostProgram) s ∧
    (s.cache.map (·.1), match s.threads (0 : Fin 1) with | .encode b _ => some b | _ => none) = ([0, 1], some 0) :=
  reachable_of_run (ls := [c, c, c, c, c, c, c, c, c, t]) (by decide +kernel)

/-- A reachable state in which the column is closed (C44, C46). -/
example : ∃ s, Reachable demo (initial demo 0 2 lostFile 1 lostProgram) s ∧
    ((match s.client with | .closed => true | _ => false), s.writes.map (·.1)) = (true, [0, 1, 0]) :=
  reachable_of_run (ls := [c, c, c, c, c, c, c, c, c, t, t, t, t, t, t, c, c, t, t, t, t, c, t, c])
    (by decide +kernel)

/-- A read that waits for a pending block and then returns the data of its last store (C47). -/
example : ∃ s, Reachable demo (initial demo 0 2 lostFile 1 [.put 0 20, .put 1 21, .put 2 22, .get 1]) s ∧
    s.outs.map (fun x => (x.1, match x.2 with | .row v => v | _ => none)) = [(1, some 21)] :=
  reachable_of_run (ls := [c, c, c, c, c, c, c, c, t, t, t, c, c, c]) (by decide +kernel)

example : ∃ s, Reachable demo (initial demo 0 2 lostFile 1 [.put 0 20, .put 1 21, .put 2 22, .get 1]) s ∧
    ((match s.client with | .getWait r => some r | _ => none), s.cache.has 0) = (some 1, true) :=
  reachable_of_run (ls := [c, c, c, c, c, c, c, c]) (by decide +kernel)

/-- A put that re-opens a block which is counted and not in the cache (C49). -/
example : ∃ s, Reachable demo (initial demo 0 2 lostFile 1 [.put 0 20]) s ∧
    ((match s.client with | .load (.put r _) => some r | _ => none), s.cache.has 0, s.nBlocks) = (some 0, false, 1) :=
  reachable_of_run (ls := [c]) (by decide +kernel)

/-- No deadlock: this program adds no columns (C45). -/
example : ∀ op ∈ lostProgram, op.noAdd = true := by decide

/-! The theorems of `ColumnProps.lean` (C43–C46) on this column and program. -/

example {s : State Nat Nat demo.threads} (h : Reachable demo (initial demo 0 2 lostFile 1 lostProgram) s) :
    s.cache.length ≤ 2 ∧ ∀ b, ofBlock s.stores b = ofBlock s.writes b ∨
      ∃ it, (b, it) ∈ s.cache ∧ ofBlock s.stores b = ofBlock s.writes b ++ [it.rows] :=
  ⟨(cache_bounded (by decide) h).1, stores_written (by decide) h⟩

/-- Block 0 is being encoded (first example above), so it is in the cache. -/
example : ∃ (s : State Nat Nat demo.threads) (r : Rows Nat),
    Reachable demo (initial demo 0 2 lostFile 1 lostProgram) s ∧ (0, ⟨r, true⟩) ∈ s.cache := by
  have h : ∃ s, Reachable demo (initial demo 0 2 lostFile 1 lostProgram) s ∧
      (match s.threads (0 : Fin 1) with | .encode b _ => b == 0 | _ => false) = true :=
    reachable_of_run (ls := [c, c, c, c, c, c, c, c, c, t]) (by decide +kernel)
  obtain ⟨s, h1, h2⟩ := h
  cases e : s.threads (0 : Fin 1) with
  | encode b r =>
    rw [e] at h2
    obtain rfl : b = 0 := by simpa using h2
    exact ⟨s, r, h1, encoding_in_cache (by decide) h1 e⟩
  | _ => rw [e] at h2; simp at h2

/-- When the column is closed, block 0 of the file has the rows of its last store. -/
example : ∃ s : State Nat Nat demo.threads, Reachable demo (initial demo 0 2 lostFile 1 lostProgram) s ∧
    s.client = .closed ∧ s.cache = [] ∧ s.threads (0 : Fin 1) = .done ∧
    s.file 0 = ((ofBlock s.stores 0).getLast?).or (fileAt 2 lostFile 0) := by
  have h : ∃ s, Reachable demo (initial demo 0 2 lostFile 1 lostProgram) s ∧
      (match s.client with | .closed => true | _ => false) = true :=
    reachable_of_run (ls := [c, c, c, c, c, c, c, c, c, t, t, t, t, t, t, c, c, t, t, t, t, c, t, c])
      (by decide +kernel)
  obtain ⟨s, h1, h2⟩ := h
  have hc : s.client = .closed := by
    cases e : s.client <;> rw [e] at h2 <;> simp at h2 ⊢
  obtain ⟨a, b, -, d⟩ := closed_drained (by decide) h1 hc
  exact ⟨s, h1, hc, a, b (0 : Fin 1), ((drained (by decide) h1 a).2 0).2⟩

/-- A thread has ended before the destructor joins it: then the stop flag is set and the cache is empty. -/
example : ∃ s : State Nat Nat demo.threads, Reachable demo (initial demo 0 2 lostFile 1 lostProgram) s ∧
    s.stop = true ∧ s.cache = [] := by
  have h : ∃ s, Reachable demo (initial demo 0 2 lostFile 1 lostProgram) s ∧
      ((match s.threads (0 : Fin 1) with | .done => true | _ => false) && s.started) = true :=
    reachable_of_run (ls := [c, c, c, c, c, c, c, c, c, t, t, t, t, t, t, c, c, t, t, t, t, c, t])
      (by decide +kernel)
  obtain ⟨s, h1, h2⟩ := h
  have hd : s.threads (0 : Fin 1) = .done := by
    cases e : s.threads (0 : Fin 1) <;> rw [e] at h2 <;> simp at h2 ⊢
  obtain ⟨a, b⟩ := ends_only_when_drained (by decide) h1 (by simpa [hd] using h2) hd
  exact ⟨s, h1, a, b⟩

/-- From every reachable state the program can be finished; a state without a step is finished. -/
example {s : State Nat Nat demo.threads} (h : Reachable demo (initial demo 0 2 lostFile 1 lostProgram) s) :
    (∃ ls s', (∀ l ∈ ls, Label.real l = true) ∧ run demo s ls = some s' ∧ Finished s') ∧
    (step demo s c = none → (∀ i, step demo s (.thread i) = none) → Finished s) :=
  ⟨can_finish (by decide) (by decide) (by decide) h fun _ => 0, no_deadlock (by decide) (by decide) (by decide) h fun _ => 0⟩

/-- The bound on the number of steps, for this program. -/
example {s : State Nat Nat demo.threads} {ls : List (Label Nat demo.threads)} (e : run demo (initial demo 0 2 lostFile 1 lostProgram) ls = some s) :
    ls.countP (·.real) + work s ≤ work (initial demo 0 2 lostFile 1 lostProgram) + ls.countP (·.spurious) :=
  steps_bounded e

end Dysco.Col
