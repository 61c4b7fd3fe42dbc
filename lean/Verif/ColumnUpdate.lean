import Verif.ColumnWhole

/-!
# Updating a reopened column

What `ThreadedDyscoColumn` (threadeddyscocolumn.cc:38-42, 79-219, 299-336) does when rows of blocks that are
in the file are read and overwritten in any order, compared with a program without threads.
-/

namespace Dysco.Col
variable {V K : Type} {n : Nat} {p : Params V K}

/-- The column without threads: the blocks of the file, a log of the writes, one block in memory, and the results so
far. -/
structure Mem (V : Type) where
  blocks : Nat → Rows V
  log : List (Nat × Rows V)
  cur : Nat
  buf : Rows V
  changed : Bool
  outs : List (Nat × Result V)

/-- How often block `b` was written. -/
def Mem.times (q : Mem V) (b : Nat) : Nat := (ofBlock q.log b).length

/-- Write the block in memory back, if it was changed. -/
def Mem.flush (q : Mem V) : Mem V :=
  if q.changed then
    { q with
      blocks := Function.update q.blocks q.cur q.buf
      log := q.log ++ [(q.cur, q.buf)]
      changed := false }
  else q

/-- Bring block `b` into memory. -/
def Mem.visit (dec : Nat → Nat → Rows V → Rows V) (q : Mem V) (b : Nat) : Mem V :=
  if b = q.cur then q else { q.flush with cur := b, buf := dec b (q.flush.times b) (q.flush.blocks b) }

/-- One call, with `m` rows per block. -/
def Mem.op (dec : Nat → Nat → Rows V → Rows V) (m : Nat) (q : Mem V) : Op V → Mem V
  | .put row v =>
    let q := q.visit dec (row / m)
    { q with buf := q.buf.set (row % m) v, changed := true }
  | .get row =>
    let q := q.visit dec (row / m)
    { q with outs := q.outs ++ [(row, q.buf.getData (row % m))] }
  | .close => q.flush
  | .addColumn | .otherInit _ => q

/-- A program, one call after the other. -/
def Mem.run (dec : Nat → Nat → Rows V → Rows V) (m : Nat) (q : Mem V) (ops : List (Op V)) : Mem V :=
  ops.foldl (Mem.op dec m) q

/-- The column when it is opened. -/
def Mem.opened (blocks : Nat → Rows V) : Mem V := ⟨blocks, [], noBlock, Rows.empty, false, []⟩

/-- The programs considered: reads and puts of rows of the first `N` blocks, and a close at the end. A put that
changes the block in memory does not go back to a block that was put before (`d`). -/
def Updates (m N : Nat) : List Nat → Nat → List (Op V) → Prop
  | _, _, [.close] => True
  | d, c, .put row _ :: rest =>
    row / m < N ∧ (row / m = c ∨ row / m ∉ d) ∧ Updates m N (row / m :: d) (row / m) rest
  | d, _, .get row :: rest => row / m < N ∧ Updates m N d (row / m) rest
  | _, _, _ => False

/-! ## The relation between the two -/

/-- All but the buffer. -/
structure Match (f : Nat → Option (Rows V)) (m N : Nat) (d : List Nat) (q : Mem V) (s : State V K n) : Prop where
  rpb : s.rowsPerBlock = m
  cur : s.current = q.cur
  changed : s.changed = q.changed
  outs : s.outs = q.outs
  blocks : ∀ b, b < N → lastStored f s b = some (q.blocks b)
  log : s.stores = q.log
  count : N ≤ s.nBlocks
  stored : ∀ b, ofBlock s.stores b ≠ [] → b ∈ d
  dirty : q.changed = true → q.cur ∈ d
  inside : q.changed = true → q.cur < N

/-- The call to be finished. -/
def Next.op : Next V → Op V
  | .put row v => .put row v
  | .get row => .get row

/-- What is left to do leads to the end `F`. -/
def Ahead (p : Params V K) (m N : Nat) (d : List Nat) (q : Mem V) (F : Mem V) (ops : List (Op V)) : Prop :=
  Updates m N d q.cur ops ∧ q.run p.dec m ops = F

/-- All calls are done. -/
structure Settled (f : Nat → Option (Rows V)) (m N : Nat) (F : Mem V) (s : State V K n) : Prop where
  rpb : s.rowsPerBlock = m
  blocks : ∀ b, b < N → lastStored f s b = some (F.blocks b)
  outs : s.outs = F.outs
  log : s.stores = F.log

/-- Invariant: the column agrees with the memory of the specification, by the place of the client. Not in the code. -/
def UpdateOK (p : Params V K) (f : Nat → Option (Rows V)) (m N : Nat) (F : Mem V) (s : State V K n) : Prop :=
  match s.client with
  | .idle => ∃ q d, Match f m N d q s ∧ s.buffer = q.buf ∧ Ahead p m N d q F s.todo
  | .getLock row | .getWait row =>
    ∃ q d, Match f m N d q s ∧ s.buffer = q.buf ∧ Ahead p m N d q F (.get row :: s.todo)
  | .store (.load k) | .storeWait (.load k) =>
    ∃ q d, Match f m N d q s ∧ s.buffer = q.buf ∧ q.changed = true ∧ k.row / m ≠ q.cur ∧
      Ahead p m N d q F (k.op :: s.todo)
  | .load k => ∃ q d, Match f m N d q s ∧ q.changed = false ∧ k.row / m ≠ q.cur ∧
      Ahead p m N d q F (k.op :: s.todo)
  | .store .stop | .storeWait .stop =>
    ∃ q d, Match f m N d q s ∧ s.buffer = q.buf ∧ q.changed = true ∧ q.flush = F
  | .stopLock | .stopWait => s.started = true ∧ Settled f m N F s
  | .join | .closed => Settled f m N F s
  | _ => False

theorem Match.same {f : Nat → Option (Rows V)} {m N : Nat} {d : List Nat} {q : Mem V} {s s' : State V K n}
    (h : Match f m N d q s) (e1 : s'.rowsPerBlock = s.rowsPerBlock) (e2 : s'.current = s.current)
    (e3 : s'.changed = s.changed) (e4 : s'.stores = s.stores) (e5 : s'.outs = s.outs)
    (e6 : s.nBlocks ≤ s'.nBlocks) : Match f m N d q s' := by
  refine ⟨e1.trans h.rpb, e2.trans h.cur, e3.trans h.changed, e5.trans h.outs, ?_, ?_, h.count.trans e6, ?_, h.dirty,
    h.inside⟩
  · intro b hb
    unfold lastStored
    rw [e4]
    exact h.blocks b hb
  · rw [e4]
    exact h.log
  · rw [e4]
    exact h.stored

theorem Settled.same {f : Nat → Option (Rows V)} {m N : Nat} {F : Mem V} {s s' : State V K n}
    (h : Settled f m N F s) (e1 : s'.rowsPerBlock = s.rowsPerBlock) (e4 : s'.stores = s.stores)
    (e5 : s'.outs = s.outs) : Settled f m N F s' := by
  refine ⟨e1.trans h.rpb, ?_, e5.trans h.outs, by rw [e4]; exact h.log⟩
  intro b hb
  unfold lastStored
  rw [e4]
  exact h.blocks b hb

/-- A step that is not one of the client returns no results and does not lower the number of blocks. -/
theorem other_counts {s s' : State V K p.threads} {l : Label V p.threads} (e : step p s l = some s')
    (hl : ∀ junk, l ≠ .client junk) : s'.outs = s.outs ∧ s.nBlocks ≤ s'.nBlocks := by
  cases l with
  | client junk => exact absurd rfl (hl junk)
  | thread i =>
    have hseek : (s.seek i).outs = s.outs ∧ s.nBlocks ≤ (s.seek i).nBlocks := by
      unfold State.seek
      split <;> exact ⟨rfl, le_rfl⟩
    simp only [step] at e
    unfold threadStep at e
    cases ht : s.threads i with
    | head =>
      simp only [ht] at e
      split at e
      · injection e with e; subst e; exact ⟨rfl, le_rfl⟩
      · injection e with e; subst e; exact hseek
    | woken => simp only [ht] at e; injection e with e; subst e; exact hseek
    | encode b r =>
      simp only [ht] at e
      split at e
      · cases e
      · injection e with e
        subst e
        refine ⟨rfl, ?_⟩
        simp only
        split <;> omega
    | written b => simp only [ht] at e; injection e with e; subst e; exact ⟨rfl, le_rfl⟩
    | wait => simp only [ht] at e; cases e
    | done => simp only [ht] at e; cases e
  | spuriousThread i => injection e with e; subst e; exact ⟨rfl, le_rfl⟩
  | spuriousClient => injection e with e; subst e; exact ⟨rfl, le_rfl⟩
  | others k =>
    simp only [step] at e
    split at e
    · cases e
    · injection e with e
      subst e
      refine ⟨rfl, ?_⟩
      simp only
      split <;> omega

theorem updateOK_own {f : Nat → Option (Rows V)} {m N : Nat} {F : Mem V} {s s' : State V K n}
    (h : UpdateOK p f m N F s) (ho : OwnSame s s') (eo : s'.outs = s.outs) (en : s.nBlocks ≤ s'.nBlocks)
    (hc : s'.client = s.client ∨ s'.client = s.client.wake) : UpdateOK p f m N F s' := by
  have hm : ∀ {q d}, Match f m N d q s → Match f m N d q s' := fun hq =>
    hq.same ho.rowsPerBlock ho.current ho.changed ho.stores eo en
  have hs : Settled f m N F s → Settled f m N F s' := fun hq => hq.same ho.rowsPerBlock ho.stores eo
  unfold UpdateOK at h ⊢
  match hpc : s.client with
  | .idle =>
    simp only [hpc] at h
    have : ∃ q d, Match f m N d q s' ∧ s'.buffer = q.buf ∧ Ahead p m N d q F s'.todo := by
      obtain ⟨q, d, h1, h2, h3⟩ := h
      exact ⟨q, d, hm h1, ho.buffer.trans h2, by rw [ho.todo]; exact h3⟩
    rcases hc with hc | hc <;> rw [hc, hpc] <;> exact this
  | .getLock row | .getWait row =>
    simp only [hpc] at h
    have : ∃ q d, Match f m N d q s' ∧ s'.buffer = q.buf ∧ Ahead p m N d q F (.get row :: s'.todo) := by
      obtain ⟨q, d, h1, h2, h3⟩ := h
      exact ⟨q, d, hm h1, ho.buffer.trans h2, by rw [ho.todo]; exact h3⟩
    rcases hc with hc | hc <;> rw [hc, hpc] <;> exact this
  | .store (.load k) | .storeWait (.load k) =>
    simp only [hpc] at h
    have : ∃ q d, Match f m N d q s' ∧ s'.buffer = q.buf ∧ q.changed = true ∧ k.row / m ≠ q.cur ∧
        Ahead p m N d q F (k.op :: s'.todo) := by
      obtain ⟨q, d, h1, h2, h3, h4, h5⟩ := h
      exact ⟨q, d, hm h1, ho.buffer.trans h2, h3, h4, by rw [ho.todo]; exact h5⟩
    rcases hc with hc | hc <;> rw [hc, hpc] <;> exact this
  | .load k =>
    simp only [hpc] at h
    have : ∃ q d, Match f m N d q s' ∧ q.changed = false ∧ k.row / m ≠ q.cur ∧
        Ahead p m N d q F (k.op :: s'.todo) := by
      obtain ⟨q, d, h1, h3, h4, h5⟩ := h
      exact ⟨q, d, hm h1, h3, h4, by rw [ho.todo]; exact h5⟩
    rcases hc with hc | hc <;> rw [hc, hpc] <;> exact this
  | .store .stop | .storeWait .stop =>
    simp only [hpc] at h
    have : ∃ q d, Match f m N d q s' ∧ s'.buffer = q.buf ∧ q.changed = true ∧ q.flush = F := by
      obtain ⟨q, d, h1, h2, h3, h4⟩ := h
      exact ⟨q, d, hm h1, ho.buffer.trans h2, h3, h4⟩
    rcases hc with hc | hc <;> rw [hc, hpc] <;> exact this
  | .stopLock | .stopWait =>
    simp only [hpc] at h
    have : s'.started = true ∧ Settled f m N F s' := ⟨ho.started.trans h.1, hs h.2⟩
    rcases hc with hc | hc <;> rw [hc, hpc] <;> exact this
  | .join | .closed =>
    simp only [hpc] at h
    have : Settled f m N F s' := hs h
    rcases hc with hc | hc <;> rw [hc, hpc] <;> exact this
  | .prepStart | .prepLock | .prepWait | .prepJoin | .failed | .unsupported =>
    simp only [hpc] at h

/-! ## The steps of the client -/

/-- A block that was not stored is in the file as it was. -/
theorem file_old {f : Nat → Option (Rows V)} {s : State V K n} (h : Core p f s) {b : Nat}
    (hb : ofBlock s.stores b = []) : s.file b = f b ∧ ofBlock s.writes b = [] := by
  have hw : ofBlock s.writes b = [] := by
    cases hc : s.cache.has b with
    | false => rw [← h.settled b (Or.inl hc)]; exact hb
    | true =>
      obtain ⟨it, hit⟩ := (has_iff _ _).mp hc
      by_cases hw : ∃ i, s.threads i = .written b
      · rw [← h.settled b (Or.inr hw)]; exact hb
      · push Not at hw
        have := h.pending b it hit hw
        rw [hb] at this
        simp at this
  rw [h.file b, hw]
  exact ⟨rfl, rfl⟩

theorem ofBlock_sub {V : Type} {l : List (Nat × Rows V)} {b : Nat} {r : Rows V} (h : r ∈ ofBlock l b) : (b, r) ∈ l := by
  unfold ofBlock at h
  simp only [List.mem_map, List.mem_filter] at h
  obtain ⟨⟨b', r'⟩, ⟨h1, h2⟩, rfl⟩ := h
  simp at h2
  subst h2
  exact h1

/-- A block that a thread encodes was stored. -/
theorem encoding_stored {f : Nat → Option (Rows V)} {s : State V K n}
    (h : Core p f s) {t : Fin n} {b : Nat} {r : Rows V} (ht : s.threads t = .encode b r) : (b, r) ∈ s.stores := by
  have h1 := h.encoding t b r ht
  have h2 := h.pending b _ h1 (by
    intro i hi
    have := h.one i t b (.inr hi) (.inl ⟨r, ht⟩)
    subst this
    rw [hi] at ht
    cases ht)
  apply ofBlock_sub
  rw [h2]
  simp

theorem timesWritten_eq (s : State V K n) (b : Nat) : s.timesWritten b = (ofBlock s.writes b).length := by
  unfold State.timesWritten ofBlock
  rw [List.length_map, List.countP_eq_length_filter]

/-- A call on the block in memory. -/
theorem update_finish {f : Nat → Option (Rows V)} {m N : Nat} {F q : Mem V} {d : List Nat} {s : State V K n}
    {k : Next V} (hm : Match f m N d q s) (hbuf : s.buffer = q.buf) (hk : k.row / m = q.cur)
    (ha : Ahead p m N d q F (k.op :: s.todo)) : UpdateOK p f m N F (s.finish k) := by
  obtain ⟨hu, hr⟩ := ha
  cases k with
  | put row v =>
    have hk : row / m = q.cur := hk
    obtain ⟨u1, u2, u3⟩ : row / m < N ∧ (row / m = q.cur ∨ row / m ∉ d) ∧
        Updates m N (row / m :: d) (row / m) s.todo := by
      simp only [Next.op] at hu
      cases hs : s.todo <;> (rw [hs] at hu; exact hu)
    refine ⟨{ q with buf := q.buf.set (row % m) v, changed := true }, row / m :: d, ?_, ?_, ?_, ?_⟩
    · refine ⟨hm.rpb, hm.cur, rfl, hm.outs, hm.blocks, hm.log, hm.count, fun b hb => List.mem_cons_of_mem _ (hm.stored b hb),
        fun _ => ?_, fun _ => ?_⟩
      · rw [hk]; exact List.mem_cons_self
      · exact hk ▸ u1
    · show s.buffer.set (row % s.rowsPerBlock) v = _
      rw [hbuf, hm.rpb]
    · show Updates m N (row / m :: d) q.cur s.todo
      rw [← hk]
      exact u3
    · rw [← hr]
      simp only [Mem.run, Next.op, List.foldl_cons, Mem.op, Mem.visit, hk, if_true, State.finish]
  | get row =>
    have hk : row / m = q.cur := hk
    obtain ⟨u1, u2⟩ : row / m < N ∧ Updates m N d (row / m) s.todo := by
      simp only [Next.op] at hu
      cases hs : s.todo <;> (rw [hs] at hu; exact hu)
    refine ⟨{ q with outs := q.outs ++ [(row, q.buf.getData (row % m))] }, d, ?_, ?_, ?_, ?_⟩
    · refine ⟨hm.rpb, hm.cur, hm.changed, ?_, hm.blocks, hm.log, hm.count, hm.stored, hm.dirty, hm.inside⟩
      show s.outs ++ [(row, s.buffer.getData (row % s.rowsPerBlock))] = _
      rw [hm.outs, hbuf, hm.rpb]
    · exact hbuf
    · show Updates m N d q.cur s.todo
      rw [← hk]
      exact u2
    · rw [← hr]
      simp only [Mem.run, Next.op, List.foldl_cons, Mem.op, Mem.visit, hk, if_true, State.finish]

/-- `Mem.visit` of another block may write the block in memory back first. -/
theorem visit_flush (dec : Nat → Nat → Rows V → Rows V) (q : Mem V) {b : Nat} (hb : b ≠ q.cur) :
    q.flush.visit dec b = q.visit dec b := by
  have hcur : q.flush.cur = q.cur := by unfold Mem.flush; split <;> rfl
  have hff : q.flush.flush = q.flush := by
    unfold Mem.flush
    by_cases h : q.changed = true
    · simp [h]
    · simp [h]
  unfold Mem.visit
  rw [hcur, if_neg hb, if_neg hb, hff]

theorem run_visit {dec : Nat → Nat → Rows V → Rows V} {m : Nat} {q q' : Mem V} {k : Next V}
    (h : q'.visit dec (k.row / m) = q.visit dec (k.row / m)) (ops : List (Op V)) :
    q'.run dec m (k.op :: ops) = q.run dec m (k.op :: ops) := by
  cases k with
  | put row v => simp only [Mem.run, Next.op, List.foldl_cons, Mem.op]; simp only [Next.row] at h; rw [h]
  | get row => simp only [Mem.run, Next.op, List.foldl_cons, Mem.op]; simp only [Next.row] at h; rw [h]

theorem update_access {f : Nat → Option (Rows V)} {m N : Nat} {F q : Mem V} {d : List Nat} {s : State V K n}
    {k : Next V} (hm : Match f m N d q s) (hbuf : s.buffer = q.buf)
    (ha : Ahead p m N d q F (k.op :: s.todo)) : UpdateOK p f m N F (s.access k) := by
  have e1 := hm.rpb
  have e2 := hm.cur
  unfold State.access
  split
  · rename_i hne
    rw [e1, e2] at hne
    split
    · rename_i hch
      exact ⟨q, d, hm.same rfl rfl rfl rfl rfl le_rfl, hbuf, hm.changed ▸ hch, hne, ha⟩
    · rename_i hch
      refine ⟨q, d, hm.same rfl rfl rfl rfl rfl le_rfl, ?_, hne, ha⟩
      rw [← hm.changed]
      simpa using hch
  · rename_i hne
    rw [e1, e2] at hne
    exact update_finish hm hbuf (by simpa using hne) ha

theorem next_updates {m N : Nat} {d : List Nat} {c : Nat} {k : Next V} {ops : List (Op V)}
    (h : Updates m N d c (k.op :: ops)) : k.row / m < N ∧ (∀ row v, k = .put row v → row / m = c ∨ row / m ∉ d) ∧
      ∀ c', (∀ row v, k = .put row v → row / m = c' ∨ row / m ∉ d) → Updates m N d c' (k.op :: ops) := by
  cases k with
  | put row v =>
    have h' : row / m < N ∧ (row / m = c ∨ row / m ∉ d) ∧ Updates m N (row / m :: d) (row / m) ops := by
      cases ops <;> exact h
    refine ⟨h'.1, ?_, ?_⟩
    · intro row' v' e
      injection e with e1 e2
      subst e1
      exact h'.2.1
    · intro c' hc'
      have := hc' row v rfl
      cases ops <;> exact ⟨h'.1, this, h'.2.2⟩
  | get row =>
    have h' : row / m < N ∧ Updates m N d (row / m) ops := by cases ops <;> exact h
    refine ⟨h'.1, (fun row' v' e => by cases e), ?_⟩
    intro c' _
    cases ops <;> exact h'

theorem lastStored_append (f : Nat → Option (Rows V)) {s s' : State V K n} {c : Nat} {r : Rows V}
    (e : s'.stores = s.stores ++ [(c, r)]) (b : Nat) :
    lastStored f s' b = if c = b then some r else lastStored f s b := by
  unfold lastStored
  rw [e, ofBlock_append]
  split
  · simp
  · rfl

theorem update_step {f : Nat → Option (Rows V)} {m N : Nat} {F : Mem V} {s s' : State V K p.threads} (hm0 : 0 < m)
    (hN : N ≤ noBlock) (hinv : Inv p f s) (hread : ReadOK p s) (h : UpdateOK p f m N F s)
    {l : Label V p.threads} (e : step p s l = some s') : UpdateOK p f m N F s' := by
  by_cases hl : ∀ junk, l ≠ .client junk
  · obtain ⟨ho, hc⟩ := other_own e hl
    obtain ⟨h1, h2⟩ := other_counts e hl
    exact updateOK_own h ho h1 h2 hc
  push Not at hl
  obtain ⟨junk, rfl⟩ := hl
  have hcl := hinv.client
  unfold ClientOK at hcl
  unfold UpdateOK at h
  unfold ReadOK at hread
  simp only [step] at e
  unfold clientStep at e
  have hstart : ∀ {q d}, Match f m N d q s → Calm s → s.started = true := by
    intro q d h1 h2
    cases hs : s.started with
    | true => rfl
    | false =>
      have := (h2.2.2 hs).2
      rw [h1.rpb] at this
      omega
  match hpc : s.client with
  | .idle =>
    simp only [hpc] at e h hcl
    obtain ⟨q, d, h1, h2, h3⟩ := h
    cases ht : s.todo with
    | nil => rw [ht] at e; cases e
    | cons op rest =>
      rw [ht] at e h3
      injection e with e
      cases op with
      | put row v =>
        simp only [State.call, State.put] at e
        rw [if_pos (by rw [h1.rpb]; omega)] at e
        subst e
        exact update_access (k := .put row v) (h1.same rfl rfl rfl rfl rfl le_rfl) h2 h3
      | get row =>
        have hb := (next_updates (k := .get row) h3.1).1
        simp only [Next.row] at hb
        simp only [State.call, State.get] at e
        rw [if_neg (by rw [h1.rpb]; omega), if_neg (by rw [h1.rpb]; have := h1.count; omega)] at e
        subst e
        exact ⟨q, d, h1.same rfl rfl rfl rfl rfl le_rfl, h2, h3⟩
      | close =>
        have hr : rest = [] := by
          cases rest with
          | nil => rfl
          | cons _ _ => exact h3.1.elim
        subst hr
        have hF : q.flush = F := h3.2
        simp only [State.call] at e
        cases hch : q.changed with
        | true =>
          rw [if_pos (h1.changed.trans hch)] at e
          subst e
          exact ⟨q, d, h1.same rfl rfl rfl rfl rfl le_rfl, h2, hch, hF⟩
        | false =>
          rw [if_neg (by rw [h1.changed, hch]; simp)] at e
          subst e
          have hq : F = q := by rw [← hF]; unfold Mem.flush; rw [hch]; rfl
          subst hq
          exact ⟨hstart h1 hcl, h1.rpb, h1.blocks, h1.outs, h1.log⟩
      | addColumn => cases rest <;> exact h3.1.elim
      | otherInit _ => cases rest <;> exact h3.1.elim
  | .getLock row =>
    simp only [hpc] at e h
    obtain ⟨q, d, h1, h2, h3⟩ := h
    split at e
    · injection e with e
      subst e
      exact ⟨q, d, h1.same rfl rfl rfl rfl rfl le_rfl, h2, h3⟩
    · injection e with e
      rw [← e]
      exact update_access (k := .get row) h1 h2 h3
  | .store (.load k) =>
    simp only [hpc] at e h
    obtain ⟨q, d, h1, h2, h3, h4, h5⟩ := h
    injection e with e
    subst e
    unfold State.storeBlock
    have hin := h1.inside h3
    rw [if_neg (by rw [h1.cur]; omega)]
    split
    · exact ⟨q, d, h1.same rfl rfl rfl rfl rfl le_rfl, h2, h3, h4, h5⟩
    · have hfl : q.flush = { q with
            blocks := Function.update q.blocks q.cur q.buf
            log := q.log ++ [(q.cur, q.buf)]
            changed := false } := by
        unfold Mem.flush; rw [h3]; rfl
      refine ⟨q.flush, d, ?_, ?_, ?_, ?_⟩
      · rw [hfl]
        refine ⟨h1.rpb, h1.cur, rfl, h1.outs, ?_, ?_, h1.count, ?_, (fun hx => by cases hx), (fun hx => by cases hx)⟩
        · intro b hb
          rw [lastStored_append f rfl, h1.cur, h2]
          show _ = some (Function.update q.blocks q.cur q.buf b)
          by_cases hcb : q.cur = b
          · rw [if_pos hcb, ← hcb, Function.update_self]
          · rw [if_neg hcb, Function.update_of_ne (Ne.symm hcb)]
            exact h1.blocks b hb
        · show s.stores ++ [(s.current, s.buffer)] = q.log ++ [(q.cur, q.buf)]
          rw [h1.log, h1.cur, h2]
        · intro b hb
          simp only [ofBlock_append] at hb
          by_cases hcb : s.current = b
          · rw [← hcb, h1.cur]; exact h1.dirty h3
          · rw [if_neg hcb] at hb; exact h1.stored b hb
      · rw [hfl]
      · rw [hfl]; exact h4
      · refine ⟨?_, ?_⟩
        · rw [hfl]; exact h5.1
        · rw [run_visit (q := q) (visit_flush p.dec q h4)]; exact h5.2
  | .store .stop =>
    simp only [hpc] at e h hcl
    obtain ⟨q, d, h1, h2, h3, h4⟩ := h
    injection e with e
    subst e
    unfold State.storeBlock
    have hin := h1.inside h3
    rw [if_neg (by rw [h1.cur]; omega)]
    split
    · exact ⟨q, d, h1.same rfl rfl rfl rfl rfl le_rfl, h2, h3, h4⟩
    · have hfl : F = { q with
            blocks := Function.update q.blocks q.cur q.buf
            log := q.log ++ [(q.cur, q.buf)]
            changed := false } := by
        rw [← h4]; unfold Mem.flush; rw [h3]; rfl
      refine ⟨hstart h1 hcl, h1.rpb, ?_, ?_, ?_⟩
      · intro b hb
        rw [lastStored_append f rfl, h1.cur, h2, hfl]
        show _ = some (Function.update q.blocks q.cur q.buf b)
        by_cases hcb : q.cur = b
        · rw [if_pos hcb, ← hcb, Function.update_self]
        · rw [if_neg hcb, Function.update_of_ne (Ne.symm hcb)]
          exact h1.blocks b hb
      · rw [hfl]; exact h1.outs
      · rw [hfl]
        show s.stores ++ [(s.current, s.buffer)] = q.log ++ [(q.cur, q.buf)]
        rw [h1.log, h1.cur, h2]
  | .load k =>
    simp only [hpc] at e h hread
    obtain ⟨q, d, h1, h3, h4, h5⟩ := h
    injection e with e
    obtain ⟨n1, n2, n3⟩ := next_updates h5.1
    have hfile : s.file (k.row / m) = some (q.blocks (k.row / m)) ∧
        s.timesWritten (k.row / m) = (ofBlock s.stores (k.row / m)).length := by
      rw [← h1.blocks _ n1, timesWritten_eq]
      cases k with
      | get row =>
        have := hread.2.2
        rw [h1.rpb] at this
        exact ⟨file_lastStored hinv.core this, by simp only [Next.row]; rw [hinv.core.settled _ (Or.inl this)]⟩
      | put row v =>
        have hnd : row / m ∉ d := (n2 row v rfl).resolve_left h4
        have hns : ofBlock s.stores (row / m) = [] := by
          by_contra hx
          exact hnd (h1.stored _ hx)
        simp only [Next.row]
        rw [(file_old hinv.core hns).1, (file_old hinv.core hns).2, lastStored, hns]
        exact ⟨rfl, rfl⟩
    have hbuf : (State.loadBlock p s (k.row / m) junk).buffer =
        p.dec (k.row / m) (q.times (k.row / m)) (q.blocks (k.row / m)) := by
      rw [loadBlock_buffer (lt_of_lt_of_le n1 h1.count) hfile.1, hfile.2, h1.log]
      rfl
    have hfl : q.flush = q := by unfold Mem.flush; rw [h3]; rfl
    have hvis : q.visit p.dec (k.row / m) = { q with cur := k.row / m, buf := p.dec (k.row / m) (q.times (k.row / m)) (q.blocks (k.row / m)) } := by
      unfold Mem.visit; rw [if_neg h4, hfl]
    rw [h1.rpb] at e
    subst e
    refine update_finish (q := q.visit p.dec (k.row / m)) (d := d) ?_ ?_ ?_ ?_
    · rw [hvis]
      refine ⟨h1.rpb, rfl, h3.symm, h1.outs, h1.blocks, h1.log, h1.count, h1.stored, fun hx => ?_, fun hx => ?_⟩ <;>
        (have hx : q.changed = true := hx; rw [h3] at hx; cases hx)
    · rw [hvis]; exact hbuf
    · rw [hvis]
    · refine ⟨?_, ?_⟩
      · rw [hvis]
        exact n3 _ (fun row v hk => by subst hk; exact Or.inl rfl)
      · rw [run_visit (q := q)]
        · exact h5.2
        · rw [hvis]
          unfold Mem.visit
          rw [if_pos rfl]
  | .stopLock =>
    simp only [hpc] at e h
    rw [if_neg (by rw [h.1]; simp)] at e
    split at e
    · injection e with e; subst e; exact ⟨h.1, h.2.same rfl rfl rfl⟩
    · injection e with e; subst e; exact h.2.same rfl rfl rfl
  | .join =>
    simp only [hpc] at e h
    split at e
    · injection e with e; subst e; exact h.same rfl rfl rfl
    · cases e
  | .closed | .storeWait _ | .stopWait | .getWait _ => simp only [hpc] at e; cases e
  | .prepStart | .prepLock | .prepWait | .prepJoin | .failed | .unsupported =>
    simp only [hpc] at h

theorem updates_noAdd {m N : Nat} {d : List Nat} {c : Nat} {ops : List (Op V)} (h : Updates m N d c ops) :
    ∀ op ∈ ops, op.noAdd = true := by
  induction ops generalizing d c with
  | nil => intro op hop; cases hop
  | cons o rest ih =>
    intro op hop
    rcases List.mem_cons.mp hop with rfl | hop2
    · cases op <;> first | rfl | (cases rest <;> exact h.elim)
    · cases o with
      | put row v =>
        have : Updates m N (row / m :: d) (row / m) rest := by cases rest <;> exact h.2.2
        exact ih this op hop2
      | get row =>
        have : Updates m N d (row / m) rest := by cases rest <;> exact h.2
        exact ih this op hop2
      | close => cases rest with
        | nil => cases hop2
        | cons _ _ => exact h.elim
      | otherInit _ => cases rest <;> exact h.elim
      | addColumn => cases rest <;> exact h.elim

theorem flush_log (q : Mem V) : q.log <+: q.flush.log := by
  unfold Mem.flush
  split
  · exact List.prefix_append _ _
  · exact List.prefix_refl _

theorem op_log {dec : Nat → Nat → Rows V → Rows V} {m : Nat} (q : Mem V) (op : Op V) : q.log <+: (q.op dec m op).log := by
  have hv : ∀ b, q.log <+: (q.visit dec b).log := by
    intro b
    unfold Mem.visit
    split
    · exact List.prefix_refl _
    · exact flush_log q
  cases op with
  | put row v => exact hv _
  | get row => exact hv _
  | close => exact flush_log q
  | addColumn => exact List.prefix_refl _
  | otherInit _ => exact List.prefix_refl _

theorem run_log {dec : Nat → Nat → Rows V → Rows V} {m : Nat} (ops : List (Op V)) (q : Mem V) : q.log <+: (q.run dec m ops).log := by
  induction ops generalizing q with
  | nil => exact List.prefix_refl _
  | cons op ops ih => exact (op_log q op).trans (ih _)

/-- The invariant of updates. -/
theorem update_ok (hn : 0 < p.threads) {m N : Nat} {blocks : Nat → Rows V}
    {file : Nat → Option (Rows V)} {todo : List (Op V)} {k : K} {nBlocks : Nat} {s : State V K p.threads}
    (hm : 0 < m) (hN : N ≤ noBlock) (hNB : N ≤ nBlocks) (hf : ∀ b, b < N → file b = some (blocks b))
    (hw : Updates m N [] noBlock todo) (h : Reachable p (initial p k m file nBlocks todo) s) :
    Inv p file s ∧ UpdateOK p file m N ((Mem.opened blocks).run p.dec m todo) s := by
  obtain ⟨ls, e⟩ := h
  have h0 : UpdateOK p file m N ((Mem.opened blocks).run p.dec m todo) (initial p k m file nBlocks todo) := by
    refine ⟨Mem.opened blocks, [], ⟨rfl, rfl, rfl, rfl, fun b hb => hf b hb, rfl, ?_, fun b hb => absurd rfl hb,
      (fun hx => by cases hx), (fun hx => by cases hx)⟩, rfl, hw, rfl⟩
    show N ≤ if m = 0 then 0 else nBlocks
    rw [if_neg (by omega)]
    exact hNB
  obtain ⟨hinv, -, hok⟩ := run_induct (P := fun s => Inv p file s ∧ ReadOK p s ∧
      UpdateOK p file m N ((Mem.opened blocks).run p.dec m todo) s)
    (fun s l s' hi he => ⟨step_inv hi.1 hn he, readOK_step hi.1 hi.2.1 he,
      update_step hm hN hi.1 hi.2.1 hi.2.2 he⟩)
    ⟨by have := initial_inv (p := p) hn k m file nBlocks todo
        rwa [if_neg (by omega)] at this,
      reachable_readOK hn ⟨[], rfl⟩, h0⟩ e
  exact ⟨hinv, hok⟩

/-- At every moment, the blocks stored so far are the first ones that the program without threads stores. -/
theorem update_stores (hn : 0 < p.threads) {m N : Nat} {blocks : Nat → Rows V}
    {file : Nat → Option (Rows V)} {todo : List (Op V)} {k : K} {nBlocks : Nat} {s : State V K p.threads}
    (hm : 0 < m) (hN : N ≤ noBlock) (hNB : N ≤ nBlocks) (hf : ∀ b, b < N → file b = some (blocks b))
    (hw : Updates m N [] noBlock todo) (h : Reachable p (initial p k m file nBlocks todo) s) :
    s.stores <+: ((Mem.opened blocks).run p.dec m todo).log := by
  obtain ⟨-, hok⟩ := update_ok hn hm hN hNB hf hw h
  unfold UpdateOK at hok
  have go : ∀ {d q ops}, Match file m N d q s → Ahead p m N d q ((Mem.opened blocks).run p.dec m todo) ops →
      s.stores <+: ((Mem.opened blocks).run p.dec m todo).log := by
    intro d q ops h1 h2
    rw [h1.log, ← h2.2]
    exact run_log ops q
  split at hok
  · obtain ⟨q, d, h1, -, h2⟩ := hok; exact go h1 h2
  · obtain ⟨q, d, h1, -, h2⟩ := hok; exact go h1 h2
  · obtain ⟨q, d, h1, -, h2⟩ := hok; exact go h1 h2
  · obtain ⟨q, d, h1, -, -, -, h2⟩ := hok; exact go h1 h2
  · obtain ⟨q, d, h1, -, -, -, h2⟩ := hok; exact go h1 h2
  · obtain ⟨q, d, h1, -, -, h2⟩ := hok; exact go h1 h2
  · obtain ⟨q, d, h1, -, -, h2⟩ := hok; rw [h1.log, ← h2]; exact flush_log q
  · obtain ⟨q, d, h1, -, -, h2⟩ := hok; rw [h1.log, ← h2]; exact flush_log q
  · rw [hok.2.log]
  · rw [hok.2.log]
  · rw [hok.log]
  · rw [hok.log]
  · exact hok.elim

/-- Updating a reopened column in place.

The column has `N` blocks of `m` rows, all in the file. The program reads and puts rows of these blocks in any
order and closes the column; a put may go to the block in memory or to a block that was not put before. Under
every schedule: the client never fails; when no step is possible any more it has closed the column; and then
the results of the reads and the blocks in the file are those of the program without threads. -/
theorem update_column (hn : 0 < p.threads) (hc : 1 ≤ p.maxCache) {m N : Nat} {blocks : Nat → Rows V}
    {file : Nat → Option (Rows V)} {todo : List (Op V)} {k : K} {nBlocks : Nat} {s : State V K p.threads}
    (hm : 0 < m) (hN : N ≤ noBlock) (hNB : N ≤ nBlocks) (hf : ∀ b, b < N → file b = some (blocks b))
    (hw : Updates m N [] noBlock todo) (h : Reachable p (initial p k m file nBlocks todo) s) :
    s.client ≠ .failed ∧ s.client ≠ .unsupported ∧
    (∀ junk, step p s (.client junk) = none → (∀ i, step p s (.thread i) = none) → s.client = .closed) ∧
    (s.client = .closed →
      s.outs = ((Mem.opened blocks).run p.dec m todo).outs ∧
      (∀ b, b < N → s.file b = some (((Mem.opened blocks).run p.dec m todo).blocks b)) ∧
      ∀ b, ofBlock s.writes b = ofBlock ((Mem.opened blocks).run p.dec m todo).log b) := by
  have hfile : fileAt m file = file := by
    unfold fileAt
    rw [if_neg (by omega)]
  have h' := h
  obtain ⟨hinv, hok⟩ := update_ok hn hm hN hNB hf hw h
  obtain ⟨ls, e⟩ := h
  refine ⟨?_, ?_, ?_, ?_⟩
  · intro hx
    unfold UpdateOK at hok
    rw [hx] at hok
    exact hok
  · intro hx
    unfold UpdateOK at hok
    rw [hx] at hok
    exact hok
  · intro junk h1 h2
    have hna : NoAdd s :=
      run_induct (P := NoAdd) (fun s l s' hs he => noAdd_step hs he) (initial_noAdd (updates_noAdd hw)) e
    unfold UpdateOK at hok
    rcases (no_deadlock_of_inv hn hc junk hinv hna h1 h2).1 with hf | hf | hf | ⟨hf, ht⟩
    · exact hf
    · rw [hf] at hok; exact hok.elim
    · rw [hf] at hok; exact hok.elim
    · rw [hf] at hok
      obtain ⟨q, d, _, _, hx⟩ := hok
      rw [ht] at hx
      exact hx.1.elim
  · intro hcl
    obtain ⟨hcache, _, _, hd⟩ := closed_drained hn h' hcl
    unfold UpdateOK at hok
    rw [hcl] at hok
    refine ⟨hok.outs, fun b hb => ?_, fun b => ?_⟩
    · rw [hd b, hfile]
      exact hok.blocks b hb
    · rw [← hok.log]
      exact (hinv.core.settled b (.inl (by rw [hcache]; rfl))).symm

/-! ## The values -/

/-- The table as a plain array: the values of the rows and the results of the reads. -/
def flat (a : Nat → V) : List (Op V) → (Nat → V) × List (Nat × V)
  | [] => (a, [])
  | .put row v :: rest => flat (Function.update a row v) rest
  | .get row :: rest => let x := flat a rest; (x.1, (row, a row) :: x.2)
  | _ :: rest => flat a rest

/-- Block `b` holds the values of the array, up to steps of `R`. -/
structure Holds (R : V → V → Prop) (m : Nat) (a : Nat → V) (b : Nat) (rows : Rows V) : Prop where
  len : rows.len = m
  get : ∀ j, j < m → ∃ w, rows.get j = some w ∧ Relation.ReflTransGen R (a (b * m + j)) w

/-- Decoding a full block gives a full block, with each value changed by `R`. -/
def Codec (R : V → V → Prop) (m : Nat) (dec : Nat → Nat → Rows V → Rows V) : Prop :=
  ∀ (b k : Nat) (r : Rows V), r.len = m → (∀ j, j < m → ∃ v, r.get j = some v) →
    (dec b k r).len = m ∧ ∀ j v, j < m → r.get j = some v → ∃ w, (dec b k r).get j = some w ∧ R v w

/-- Every block of the memory, and the buffer, holds the wanted rows. Not in the code. -/
structure Tracks (R : V → V → Prop) (m N : Nat) (a : Nat → V) (q : Mem V) : Prop where
  blocks : ∀ b, b < N → (b ≠ q.cur ∨ q.changed = false) → Holds R m a b (q.blocks b)
  buf : q.cur < N → Holds R m a q.cur q.buf

theorem tracks_flush {R : V → V → Prop} {m N : Nat} {a : Nat → V} {q : Mem V} (h : Tracks R m N a q) :
    ∀ b, b < N → Holds R m a b (q.flush.blocks b) := by
  intro b hb
  unfold Mem.flush
  cases hc : q.changed with
  | false => exact h.blocks b hb (Or.inr hc)
  | true =>
    show Holds R m a b (Function.update q.blocks q.cur q.buf b)
    by_cases hbc : b = q.cur
    · subst hbc
      rw [Function.update_self]
      exact h.buf hb
    · rw [Function.update_of_ne hbc]
      exact h.blocks b hb (Or.inl hbc)

theorem holds_dec {R : V → V → Prop} {m : Nat} {a : Nat → V} {dec : Nat → Nat → Rows V → Rows V} (hdec : Codec R m dec) {b : Nat}
    {r : Rows V} (h : Holds R m a b r) (b' k : Nat) : Holds R m a b (dec b' k r) := by
  obtain ⟨h1, h2⟩ := hdec b' k r h.len (fun j hj => (h.get j hj).imp fun w hw => hw.1)
  refine ⟨h1, fun j hj => ?_⟩
  obtain ⟨v, hv, hr⟩ := h.get j hj
  obtain ⟨w, hw, hvw⟩ := h2 j v hj hv
  exact ⟨w, hw, hr.tail hvw⟩

theorem tracks_visit {R : V → V → Prop} {m N : Nat} {a : Nat → V} {dec : Nat → Nat → Rows V → Rows V} (hdec : Codec R m dec)
    {q : Mem V} (h : Tracks R m N a q) {b : Nat} (hb : b < N) :
    Tracks R m N a (q.visit dec b) ∧ (q.visit dec b).cur = b ∧ (q.visit dec b).outs = q.outs := by
  unfold Mem.visit
  split
  · rename_i hbc
    exact ⟨h, hbc.symm, rfl⟩
  · refine ⟨⟨fun b' hb' _ => tracks_flush h b' hb', fun _ => holds_dec hdec (tracks_flush h b hb) _ _⟩, rfl, ?_⟩
    show q.flush.outs = q.outs
    unfold Mem.flush
    split <;> rfl

theorem holds_other {R : V → V → Prop} {m : Nat} {a : Nat → V} {row : Nat} {v : V} {b : Nat} (hb : b ≠ row / m)
    {r : Rows V} (h : Holds R m a b r) : Holds R m (Function.update a row v) b r := by
  refine ⟨h.len, fun j hj => ?_⟩
  rw [Function.update_of_ne]
  · exact h.get j hj
  · rintro rfl
    apply hb
    rw [Nat.mul_comm, Nat.mul_add_div (by omega), Nat.div_eq_of_lt hj, Nat.add_zero]

theorem holds_set {R : V → V → Prop} {m : Nat} {a : Nat → V} {row : Nat} {v : V} (hm : 0 < m)
    {r : Rows V} (h : Holds R m a (row / m) r) :
    Holds R m (Function.update a row v) (row / m) (r.set (row % m) v) := by
  have hlt := Nat.mod_lt row hm
  have hlen := h.len
  refine ⟨?_, fun j hj => ?_⟩
  · simp only [Rows.set]
    rw [if_neg (by omega), hlen]
  · simp only [Rows.set]
    have hrow : row / m * m + row % m = row := by rw [Nat.mul_comm]; exact Nat.div_add_mod row m
    by_cases hjr : j = row % m
    · rw [if_pos hjr, hjr, hrow, Function.update_self]
      exact ⟨v, rfl, .refl⟩
    · rw [if_neg hjr, if_pos (by omega), Function.update_of_ne (by omega)]
      exact h.get j hj

/-- The results of the reads: the rows asked for, with the values of the array up to steps of `R`. -/
def Reads (R : V → V → Prop) (outs : List (Nat × Result V)) (l : List (Nat × V)) : Prop :=
  List.Forall₂ (fun o x => o.1 = x.1 ∧ ∃ w, o.2 = .row (some w) ∧ Relation.ReflTransGen R x.2 w) outs l

theorem tracks_run {R : V → V → Prop} {m N : Nat} {dec : Nat → Nat → Rows V → Rows V} (hdec : Codec R m dec) (hm : 0 < m)
    {ops : List (Op V)} : ∀ {d : List Nat} {c : Nat} {a : Nat → V} {q : Mem V}, Updates m N d c ops →
    Tracks R m N a q → (∀ b, b < N → Holds R m (flat a ops).1 b ((q.run dec m ops).blocks b)) ∧
      ∃ more, (q.run dec m ops).outs = q.outs ++ more ∧ Reads R more (flat a ops).2 := by
  induction ops with
  | nil => intro d c a q hu; exact hu.elim
  | cons op rest ih =>
    intro d c a q hu ht
    cases op with
    | put row v =>
      have hu' : row / m < N ∧ (row / m = c ∨ row / m ∉ d) ∧ Updates m N (row / m :: d) (row / m) rest := by
        cases rest <;> exact hu
      obtain ⟨t1, t2, t3⟩ := tracks_visit hdec ht hu'.1
      have := ih (a := Function.update a row v) (q := q.op dec m (.put row v)) hu'.2.2 ?_
      · obtain ⟨i1, more, i2, i3⟩ := this
        refine ⟨i1, more, ?_, i3⟩
        rw [← t3]
        exact i2
      · refine ⟨fun b hb hne => ?_, fun hb => ?_⟩
        · rcases hne with hne | hne
          · have hne : b ≠ (q.visit dec (row / m)).cur := hne
            exact holds_other (by rw [← t2]; exact hne) (t1.blocks b hb (Or.inl hne))
          · cases hne
        · have h1 := t1.buf (by rw [t2]; exact hu'.1)
          rw [t2] at h1
          have h2 := holds_set (v := v) hm h1
          show Holds R m _ (q.visit dec (row / m)).cur _
          rw [t2]
          exact h2
    | get row =>
      have hu' : row / m < N ∧ Updates m N d (row / m) rest := by cases rest <;> exact hu
      obtain ⟨t1, t2, t3⟩ := tracks_visit hdec ht hu'.1
      obtain ⟨i1, more, i2, i3⟩ := ih (a := a) (q := q.op dec m (.get row)) hu'.2 ⟨t1.blocks, t1.buf⟩
      have hb := t1.buf (by rw [t2]; exact hu'.1)
      obtain ⟨w, hw, hr⟩ := hb.get (row % m) (Nat.mod_lt row hm)
      rw [t2, show row / m * m + row % m = row by rw [Nat.mul_comm]; exact Nat.div_add_mod row m] at hr
      have hdata : (q.visit dec (row / m)).buf.getData (row % m) = .row (some w) := by
        unfold Rows.getData
        rw [if_pos (by rw [hb.len]; exact Nat.mod_lt row hm), hw]
      refine ⟨i1, (row, .row (some w)) :: more, ?_, .cons ⟨rfl, w, rfl, hr⟩ i3⟩
      have e : (q.run dec m (.get row :: rest)).outs = _ := i2
      rw [e]
      simp only [Mem.op]
      rw [hdata, t3, List.append_assoc]
      rfl
    | close =>
      cases rest with
      | nil =>
        refine ⟨tracks_flush ht, [], ?_, .nil⟩
        show q.flush.outs = _
        rw [List.append_nil]
        unfold Mem.flush
        split <;> rfl
      | cons _ _ => exact hu.elim
    | addColumn => cases rest <;> exact hu.elim
    | otherInit _ => cases rest <;> exact hu.elim

/-- In values: the reads return, and the file holds after closing, the last value put to each row (or the value
of the table as it was), up to the changes `R` that encoding and decoding make, once for each time the block
was brought into memory. -/
theorem update_values (hn : 0 < p.threads) (hc : 1 ≤ p.maxCache) {m N : Nat} {R : V → V → Prop} {a : Nat → V}
    {file : Nat → Option (Rows V)} {todo : List (Op V)} {k : K} {nBlocks : Nat} {s : State V K p.threads}
    (hm : 0 < m) (hN : N ≤ noBlock) (hNB : N ≤ nBlocks) (hdec : Codec R m p.dec)
    (hf : ∀ b, b < N → ∃ rows, file b = some rows ∧ rows.len = m ∧ ∀ j, j < m → rows.get j = some (a (b * m + j)))
    (hw : Updates m N [] noBlock todo) (h : Reachable p (initial p k m file nBlocks todo) s)
    (hcl : s.client = .closed) :
    Reads R s.outs (flat a todo).2 ∧
    ∀ row, row < N * m → ∃ rows w, s.file (row / m) = some rows ∧ rows.get (row % m) = some w ∧
      Relation.ReflTransGen R ((flat a todo).1 row) w := by
  have hex : ∀ b, ∃ rows, b < N → file b = some rows ∧ rows.len = m ∧ ∀ j, j < m → rows.get j = some (a (b * m + j)) := by
    intro b
    by_cases hb : b < N
    · obtain ⟨r, hr⟩ := hf b hb
      exact ⟨r, fun _ => hr⟩
    · exact ⟨Rows.empty, fun hx => absurd hx hb⟩
  choose blocks hbl using hex
  obtain ⟨-, -, -, hfin⟩ := update_column hn hc hm hN hNB (fun b hb => (hbl b hb).1) hw h
  obtain ⟨ho, hfile, -⟩ := hfin hcl
  have ht : Tracks R m N a (Mem.opened blocks) := by
    refine ⟨fun b hb _ => ⟨(hbl b hb).2.1, fun j hj => ⟨_, (hbl b hb).2.2 j hj, .refl⟩⟩, fun hx => ?_⟩
    have hx : noBlock < N := hx
    omega
  obtain ⟨r1, more, r2, r3⟩ := tracks_run hdec hm hw ht
  refine ⟨?_, fun row hrow => ?_⟩
  · rw [ho, r2]
    exact r3
  · have hb : row / m < N := (Nat.div_lt_iff_lt_mul hm).mpr hrow
    obtain ⟨w, hw', hr⟩ := (r1 _ hb).get (row % m) (Nat.mod_lt row hm)
    rw [show row / m * m + row % m = row by rw [Nat.mul_comm]; exact Nat.div_add_mod row m] at hr
    exact ⟨_, w, hfile _ hb, hw', hr⟩

/-- If decoding gives back what was encoded, the threads cannot be told from an array: reads return the last
value put. -/
theorem update_lossless (hn : 0 < p.threads) (hc : 1 ≤ p.maxCache) {m N : Nat} {a : Nat → V}
    {file : Nat → Option (Rows V)} {todo : List (Op V)} {k : K} {nBlocks : Nat} {s : State V K p.threads}
    (hm : 0 < m) (hN : N ≤ noBlock) (hNB : N ≤ nBlocks) (hdec : ∀ b k r, p.dec b k r = r)
    (hf : ∀ b, b < N → ∃ rows, file b = some rows ∧ rows.len = m ∧ ∀ j, j < m → rows.get j = some (a (b * m + j)))
    (hw : Updates m N [] noBlock todo) (h : Reachable p (initial p k m file nBlocks todo) s)
    (hcl : s.client = .closed) :
    s.outs = (flat a todo).2.map (fun x => (x.1, .row (some x.2))) ∧
    ∀ row, row < N * m → ∃ rows, s.file (row / m) = some rows ∧ rows.get (row % m) = some ((flat a todo).1 row) := by
  have hr : ∀ {v w : V}, Relation.ReflTransGen Eq v w → v = w := by
    intro v w h
    induction h with
    | refl => rfl
    | tail _ h2 ih => exact ih.trans h2
  obtain ⟨h1, h2⟩ := update_values (R := Eq) hn hc hm hN hNB
    (fun b k r h1 _ => by rw [hdec b k r]; exact ⟨h1, fun j v _ hv => ⟨v, hv, rfl⟩⟩) hf hw h hcl
  refine ⟨?_, fun row hrow => ?_⟩
  · unfold Reads at h1
    clear h2
    generalize s.outs = outs at h1
    generalize (flat a todo).2 = l at h1
    induction h1 with
    | nil => rfl
    | cons h1 _ ih =>
      rename_i o x _ _
      obtain ⟨e1, w, e2, e3⟩ := h1
      rw [List.map_cons, ih, hr e3, ← e2, ← e1]
  · obtain ⟨rows, w, e1, e2, e3⟩ := h2 row hrow
    exact ⟨rows, e1, by rw [e2, hr e3]⟩

/-! ## Reading before writing -/

/-- Each row is read and then put, and the column is closed. -/
def readWrite (l : List (Nat × V)) : List (Op V) := l.flatMap (fun x => [.get x.1, .put x.1 x.2]) ++ [.close]

/-- Programs that read each row before they put it may go through the rows in any order. -/
theorem readWrite_updates {m N : Nat} (l : List (Nat × V)) (h : ∀ x ∈ l, x.1 / m < N) :
    ∀ d c, Updates m N d c (readWrite l) := by
  induction l with
  | nil => intro d c; trivial
  | cons x l ih =>
    intro d c
    have h1 := h x List.mem_cons_self
    have h2 := ih (fun y hy => h y (List.mem_cons_of_mem _ hy)) (x.1 / m :: d) (x.1 / m)
    exact ⟨h1, h1, Or.inl rfl, h2⟩

/-! ## Beginning a new block -/

/-- A put to a block beyond the file, when the block in memory was only read: the new block begins with the
rows of the block in memory. -/
theorem stale_rows (hn : 0 < p.threads) {k : K} {rows nBlocks : Nat} {file : Nat → Option (Rows V)}
    {todo rest : List (Op V)} {s : State V K p.threads}
    (h : Reachable p (initial p k rows file nBlocks todo) s) (hid : s.client = .idle) {row : Nat} {v : V}
    (ht : s.todo = .put row v :: rest) (hch : s.changed = false) (hcur : s.current ≠ noBlock) {r : Rows V}
    (hr : s.file s.current = some r) (hm : s.rowsPerBlock ≠ 0) (hnew : s.nBlocks ≤ row / s.rowsPerBlock)
    (junk : Nat → V) : ∃ s1 s2, step p s (.client junk) = some s1 ∧ step p s1 (.client junk) = some s2 ∧
      s2.client = .idle ∧ s2.current = row / s.rowsPerBlock ∧ s2.changed = true ∧
      s2.buffer = (p.dec s.current (s.timesWritten s.current) r).set (row % s.rowsPerBlock) v := by
  have hok := reachable_readOK hn h
  unfold ReadOK at hok
  rw [hid] at hok
  obtain ⟨_, c2, c3⟩ := hok hch hcur
  have hne : row / s.rowsPerBlock ≠ s.current := by omega
  refine ⟨{ s with todo := rest, client := .load (.put row v) }, _, ?_, rfl, rfl, rfl, rfl, ?_⟩
  · simp only [step, clientStep, hid, ht, State.call, State.put, State.access, Next.row]
    rw [if_pos hm, if_pos hne, if_neg (by rw [hch]; simp)]
  · show (State.loadBlock p _ (row / s.rowsPerBlock) junk).buffer.set _ v = _
    simp only [State.loadBlock]
    rw [if_neg (by omega), c3 r hr]

/-- The same when the block in memory was changed: once that is stored, the new block begins empty. -/
theorem fresh_rows {s s1 s2 : State V K p.threads} {row : Nat} {v : V} {junk : Nat → V}
    (hpc : s.client = .store (.load (.put row v))) (e1 : step p s (.client junk) = some s1)
    (hl : s1.client = .load (.put row v)) (hnew : s1.nBlocks ≤ row / s.rowsPerBlock)
    (e2 : step p s1 (.client junk) = some s2) :
    s2.current = row / s.rowsPerBlock ∧ s2.buffer = Rows.empty.set (row % s.rowsPerBlock) v := by
  have hb : s1.buffer = Rows.empty ∧ s1.rowsPerBlock = s.rowsPerBlock := by
    simp only [step, clientStep, hpc] at e1
    injection e1 with e1
    unfold State.storeBlock at e1
    split at e1
    · subst e1; cases hl
    · split at e1
      · subst e1; cases hl
      · subst e1; exact ⟨rfl, rfl⟩
  simp only [step, clientStep, hl] at e2
  injection e2 with e2
  subst e2
  rw [← hb.2] at hnew ⊢
  refine ⟨rfl, ?_⟩
  show (State.loadBlock p s1 (row / s1.rowsPerBlock) junk).buffer.set _ v = _
  simp only [State.loadBlock]
  rw [if_neg (by omega), hb.1]

/-! ## Examples -/

/-- Two blocks of two rows: 10, 11 and 12, 13. -/
def twoBlocks : Nat → Option (Rows Nat) := fun b =>
  if b < 2 then some ((Rows.empty.set 0 (10 + 2 * b)).set 1 (11 + 2 * b)) else none

/-- Rows of both blocks are read and rewritten, going back to block 0 to read. -/
def updateProgram : List (Op Nat) := [.get 3, .put 2 22, .get 1, .put 0 20, .get 2, .get 0, .close]

example : Updates 2 2 [] noBlock updateProgram := by
  simp [Updates, updateProgram, noBlock]

example : ∀ b, b < 2 → ∃ rows, twoBlocks b = some rows ∧ rows.len = 2 ∧
    ∀ j, j < 2 → rows.get j = some ((fun r => 10 + r) (b * 2 + j)) := by
  intro b hb
  refine ⟨_, if_pos hb, rfl, fun j hj => ?_⟩
  have : j = 0 ∨ j = 1 := by omega
  rcases this with rfl | rfl <;> simp [Rows.set, Rows.empty] <;> omega

example : (flat (fun r => 10 + r) updateProgram).2 = [(3, 13), (1, 11), (2, 22), (0, 20)] := by decide

example : ∃ s, Reachable demo (initial demo 0 2 twoBlocks 2 updateProgram) s ∧
    ((match s.client with | .closed => true | _ => false),
      s.outs.map fun x => (x.1, match x.2 with | .row v => v | _ => none)) =
      (true, [(3, some 13), (1, some 11), (2, some 22), (0, some 20)]) :=
  reachable_of_run (ls := [c, c, c, c, c, c, c, c, c, c, t, t, t, c, c, c, c, t, t, t, c, c, c, c, t, c]) (by decide +kernel)

/-- Row 1 is read and row 4, the first row of a third block, is put; the column is closed. The file then has the
value 11 of row 1 in row 5. -/
theorem stale_row :
    ((run demo (initial demo 0 2 twoBlocks 2 [.get 1, .put 4 24, .close])
        [c, c, c, c, c, c, c, t, t, t, c, t, c]).map fun s =>
      (match s.client with | .closed => true | _ => false,
        (s.file 2).map fun r => (r.get 0, r.get 1))) = some (true, some (some 24, some 11)) := by
  decide +kernel

/-- The state before the put of row 4. -/
example : ∃ s, Reachable demo (initial demo 0 2 twoBlocks 2 [.get 1, .put 4 24, .close]) s ∧
    ((match s.client with | .idle => true | _ => false), s.changed, s.current, s.nBlocks, (s.file 0).isSome) =
      (true, false, 0, 2, true) :=
  reachable_of_run (ls := [c, c, c]) (by decide +kernel)

example : ∃ s, Reachable demo (initial demo 0 2 twoBlocks 2 [.put 1 21, .put 4 24, .close]) s ∧
    ((match s.client with | .store (.load (.put r _)) => some r | _ => none), s.nBlocks) = (some 4, 2) :=
  reachable_of_run (ls := [c, c, c]) (by decide +kernel)

/-- The program of `lost_row` puts to block 0, to block 1, and to block 0 again; without threads row 1 would
hold 21 (`lost_row`: 11). -/
example : ¬ Updates 2 2 [] noBlock lostProgram := by simp [Updates, lostProgram, noBlock]

example : (((Mem.opened fun b => (lostFile b).getD Rows.empty).run (fun _ _ => id) 2 lostProgram).blocks 0).get 1 = some 21 := by
  decide

end Dysco.Col
