import Verif.ColumnReads

/-! # Writing a whole column, and closing it -/

namespace Dysco.Col
variable {V K : Type} {n : Nat} {p : Params V K}

/-! ## A step of a thread does not touch what belongs to the client -/

/-- The variables of the client are the same. -/
structure OwnSame (s s' : State V K n) : Prop where
  todo : s'.todo = s.todo
  started : s'.started = s.started
  rowsPerBlock : s'.rowsPerBlock = s.rowsPerBlock
  buffer : s'.buffer = s.buffer
  current : s'.current = s.current
  changed : s'.changed = s.changed
  last : s'.last = s.last
  stores : s'.stores = s.stores
  cache : s.cache = [] → s'.cache = []

theorem thread_own {s s' : State V K n} {i : Fin n} (e : threadStep s i = some s') :
    OwnSame s s' ∧ (s'.client = s.client ∨ s'.client = s.client.wake) := by
  have hseek : OwnSame s (s.seek i) ∧ (s.seek i).client = s.client := by
    unfold State.seek
    split
    · exact ⟨⟨rfl, rfl, rfl, rfl, rfl, rfl, rfl, rfl, fun h => (take_nil _ _).mpr h⟩, rfl⟩
    · exact ⟨⟨rfl, rfl, rfl, rfl, rfl, rfl, rfl, rfl, id⟩, rfl⟩
  unfold threadStep at e
  cases ht : s.threads i with
  | head =>
    simp only [ht] at e
    split at e
    · injection e with e; subst e; exact ⟨⟨rfl, rfl, rfl, rfl, rfl, rfl, rfl, rfl, id⟩, Or.inl rfl⟩
    · injection e with e; subst e; exact ⟨hseek.1, Or.inl hseek.2⟩
  | woken => simp only [ht] at e; injection e with e; subst e; exact ⟨hseek.1, Or.inl hseek.2⟩
  | encode b r =>
    simp only [ht] at e
    split at e
    · cases e
    · injection e with e; subst e; exact ⟨⟨rfl, rfl, rfl, rfl, rfl, rfl, rfl, rfl, id⟩, Or.inl rfl⟩
  | written b =>
    simp only [ht] at e
    injection e with e
    subst e
    exact ⟨⟨rfl, rfl, rfl, rfl, rfl, rfl, rfl, rfl, fun h => by
      show s.cache.remove b = []
      rw [h]; rfl⟩, Or.inr rfl⟩
  | wait => simp only [ht] at e; cases e
  | done => simp only [ht] at e; cases e

/-- Every step that is not one of the client leaves its variables alone. -/
theorem other_own {s s' : State V K p.threads} {l : Label V p.threads} (e : step p s l = some s')
    (hl : ∀ junk, l ≠ .client junk) : OwnSame s s' ∧ (s'.client = s.client ∨ s'.client = s.client.wake) := by
  cases l with
  | client junk => exact absurd rfl (hl junk)
  | thread i => exact thread_own e
  | spuriousThread i =>
    injection e with e; subst e; exact ⟨⟨rfl, rfl, rfl, rfl, rfl, rfl, rfl, rfl, id⟩, Or.inl rfl⟩
  | spuriousClient =>
    injection e with e; subst e; exact ⟨⟨rfl, rfl, rfl, rfl, rfl, rfl, rfl, rfl, id⟩, Or.inr rfl⟩
  | others m =>
    simp only [step] at e
    split at e
    · cases e
    · injection e with e; subst e; exact ⟨⟨rfl, rfl, rfl, rfl, rfl, rfl, rfl, rfl, id⟩, Or.inl rfl⟩

/-! ## C42: the rows per block -/

/-- Rows are put one after the other from row `r` on, with reads in between; after a close nothing matters. -/
def InOrder : Nat → List (Op V) → Prop
  | _, [] => True
  | r, .put r' _ :: rest => r' = r ∧ InOrder (r + 1) rest
  | r, .get _ :: rest => InOrder r rest
  | _, .close :: _ => True
  | _, _ => False

/-- The state of a new column before the rows per block are known. -/
structure Starting (p : Params V K) (s : State V K n) (r : Nat) : Prop where
  order : InOrder r s.todo
  len : s.buffer.len = r
  last : 0 < r → s.last = p.key 0
  same : ∀ j, j < r → 0 < j → p.differs (p.key j) (p.key 0) = false

/-- Row `m` is the first one whose key differs from that of row 0. -/
def FirstDifference (p : Params V K) (m : Nat) : Prop :=
  0 < m ∧ p.differs (p.key m) (p.key 0) = true ∧ ∀ j, 0 < j → j < m → p.differs (p.key j) (p.key 0) = false

/-- Invariant: the rows per block are unknown, or they are the first row with another key. Not in the code. -/
def SizeOK (p : Params V K) (s : State V K n) : Prop :=
  (s.rowsPerBlock = 0 ∧ match s.client with
    | .idle => ∃ r, Starting p s r
    | .store .stop | .storeWait .stop | .stopLock | .stopWait | .join | .closed | .failed | .unsupported => True
    | _ => False) ∨
  FirstDifference p s.rowsPerBlock

theorem access_rpb (s : State V K n) (k : Next V) : (s.access k).rowsPerBlock = s.rowsPerBlock :=
  (access_same s k).2.1

theorem call_rpb {s : State V K n} (h : s.rowsPerBlock ≠ 0) (op : Op V) :
    (State.call p s op).rowsPerBlock = s.rowsPerBlock := by
  cases op with
  | put row v =>
    simp only [State.call, State.put]
    rw [if_pos h]
    exact access_rpb _ _
  | get row =>
    simp only [State.call]
    unfold State.get
    split
    · rfl
    · split <;> rfl
  | close => simp only [State.call]; split <;> rfl
  | addColumn => simp only [State.call]; split <;> rfl
  | otherInit rows => simp only [State.call]; rw [if_pos h]

/-- Once known, the rows per block never change. -/
theorem rpb_fixed {s s' : State V K p.threads} {l : Label V p.threads} (h : s.rowsPerBlock ≠ 0)
    (e : step p s l = some s') : s'.rowsPerBlock = s.rowsPerBlock := by
  by_cases hl : ∀ junk, l ≠ .client junk
  · exact (other_own e hl).1.rowsPerBlock
  · push Not at hl
    obtain ⟨junk, rfl⟩ := hl
    simp only [step] at e
    unfold clientStep at e
    cases hpc : s.client with
    | idle =>
      simp only [hpc] at e
      cases ht : s.todo with
      | nil => rw [ht] at e; cases e
      | cons op rest =>
        rw [ht] at e
        injection e with e
        subst e
        exact call_rpb (s := { s with client := .idle, todo := rest }) h op
    | store k =>
      simp only [hpc] at e
      injection e with e
      subst e
      unfold State.storeBlock
      split
      · rfl
      · split <;> rfl
    | getLock row =>
      simp only [hpc] at e
      split at e
      · injection e with e; subst e; rfl
      · injection e with e
        rw [← e]
        exact access_rpb _ _
    | load k =>
      simp only [hpc] at e
      injection e with e
      subst e
      cases k <;> rfl
    | stopLock =>
      simp only [hpc] at e
      split at e
      · split at e <;> (injection e with e; subst e; rfl)
      · split at e <;> (injection e with e; subst e; rfl)
    | join =>
      simp only [hpc] at e
      split at e
      · injection e with e; subst e; rfl
      · cases e
    | prepStart => simp only [hpc] at e; injection e with e; subst e; rfl
    | prepLock =>
      simp only [hpc] at e
      split at e
      · split at e <;> (injection e with e; subst e; rfl)
      · split at e <;> (injection e with e; subst e; rfl)
    | prepJoin =>
      simp only [hpc] at e
      split at e
      · injection e with e
        subst e
        rfl
      · cases e
    | prepWait => simp only [hpc] at e; cases e
    | storeWait k => simp only [hpc] at e; cases e
    | getWait row => simp only [hpc] at e; cases e
    | stopWait => simp only [hpc] at e; cases e
    | closed => simp only [hpc] at e; cases e
    | failed => simp only [hpc] at e; cases e
    | unsupported => simp only [hpc] at e; cases e

theorem sizeOK_step {f : Nat → Option (Rows V)} {s s' : State V K p.threads} (hinv : Inv p f s) (h : SizeOK p s)
    {l : Label V p.threads} (e : step p s l = some s') : SizeOK p s' := by
  rcases h with ⟨h0, h⟩ | h
  swap
  · right
    rw [rpb_fixed (by have := h.1; omega) e]
    exact h
  by_cases hl : ∀ junk, l ≠ .client junk
  · obtain ⟨ho, hc⟩ := other_own e hl
    left
    refine ⟨by rw [ho.rowsPerBlock]; exact h0, ?_⟩
    match hpc : s.client with
    | .idle =>
      have hc : s'.client = .idle := by
        rcases hc with hc | hc
        · exact hc.trans hpc
        · rw [hc, hpc]; rfl
      simp only [hpc, hc] at h ⊢
      obtain ⟨r, h1, h2, h3, h4⟩ := h
      exact ⟨r, by rw [ho.todo]; exact h1, by rw [ho.buffer]; exact h2, by rw [ho.last]; exact h3, h4⟩
    | .store .stop | .stopLock | .join | .closed | .failed | .unsupported | .storeWait .stop | .stopWait =>
      rcases hc with hc | hc <;> rw [hc, hpc] <;> trivial
    | .store (.load _) | .storeWait (.load _) | .load _ | .getLock _ | .getWait _ | .prepStart | .prepLock
    | .prepWait | .prepJoin => simp only [hpc] at h
  · push Not at hl
    obtain ⟨junk, rfl⟩ := hl
    have hcl := hinv.client
    unfold ClientOK at hcl
    simp only [step] at e
    unfold clientStep at e
    match hpc : s.client with
    | .idle =>
      simp only [hpc] at e h hcl
      obtain ⟨r, hst⟩ := h
      have hord := hst.order
      cases ht : s.todo with
      | nil => rw [ht] at e; cases e
      | cons op rest =>
        rw [ht] at e hord
        injection e with e
        cases op with
        | put row v =>
          obtain ⟨rfl, hord⟩ : row = r ∧ InOrder (r + 1) rest := hord
          simp only [State.call, State.put, h0, ne_eq, not_true_eq_false, if_false] at e
          split at e
          · rename_i hz
            have hz : row = 0 := by rw [← hst.len]; exact hz
            subst hz
            subst e
            left
            refine ⟨rfl, 1, hord, ?_, fun _ => rfl, fun j h1 h2 => by omega⟩
            simp only [Rows.set]
            rw [if_pos (by rw [hst.len])]
          · rename_i hz
            have hz : 0 < row := by rw [hst.len] at hz; omega
            have hlast := hst.last hz
            split at e
            · rename_i hd
              rw [if_neg (by omega)] at e
              have hd : p.differs (p.key row) (p.key 0) = true := by rw [← hlast]; exact hd
              split at e
              · rename_i hx
                exact absurd (hcl.2.2 (hinv.offsets h0)).1 hx
              · subst e
                right
                rw [access_rpb]
                exact ⟨hz, hd, fun j h1 h2 => hst.same j h2 h1⟩
            · rename_i hd
              subst e
              left
              refine ⟨rfl, row + 1, hord, ?_, fun _ => hlast, ?_⟩
              · simp only [Rows.set]
                rw [if_pos (by rw [hst.len])]
              · intro j h1 h2
                rcases Nat.lt_succ_iff_lt_or_eq.mp h1 with h3 | h3
                · exact hst.same j h3 h2
                · subst h3
                  rw [hlast] at hd
                  simpa using hd
        | get row =>
          simp only [State.call, State.get, h0, if_true] at e
          subst e
          exact Or.inl ⟨rfl, r, hord, hst.len, hst.last, hst.same⟩
        | close =>
          simp only [State.call] at e
          split at e <;> (subst e; exact Or.inl ⟨h0, trivial⟩)
        | addColumn => exact hord.elim
        | otherInit rows => exact hord.elim
    | .store .stop =>
      simp only [hpc] at e
      injection e with e
      subst e
      left
      unfold State.storeBlock
      split
      · exact ⟨h0, trivial⟩
      · split <;> exact ⟨h0, trivial⟩
    | .stopLock =>
      simp only [hpc] at e
      left
      split at e
      · split at e <;> (injection e with e; subst e; exact ⟨h0, trivial⟩)
      · split at e <;> (injection e with e; subst e; exact ⟨h0, trivial⟩)
    | .join =>
      simp only [hpc] at e
      split at e
      · injection e with e; subst e; exact Or.inl ⟨h0, trivial⟩
      · cases e
    | .closed | .failed | .unsupported | .storeWait .stop | .stopWait => simp only [hpc] at e; cases e
    | .store (.load _) | .storeWait (.load _) | .load _ | .getLock _ | .getWait _ | .prepStart | .prepLock
    | .prepWait | .prepJoin => simp only [hpc] at h

/-- Putting the rows of a new column one after the other: the rows per block, once known, are the index of
the first row whose time, field or data description differs from that of row 0. -/
theorem block_size (hn : 0 < p.threads) {k : K} {todo : List (Op V)} {nBlocks : Nat}
    {file : Nat → Option (Rows V)} {s : State V K p.threads} (ho : InOrder 0 todo)
    (h : Reachable p (initial p k 0 file nBlocks todo) s) :
    s.rowsPerBlock = 0 ∨ FirstDifference p s.rowsPerBlock := by
  obtain ⟨ls, e⟩ := h
  have := (run_induct (P := fun s => Inv p (fileAt 0 file) s ∧ SizeOK p s)
    (fun s l s' hs he => ⟨step_inv hs.1 hn he, sizeOK_step hs.1 hs.2 he⟩)
    ⟨initial_inv hn k 0 file nBlocks todo, Or.inl ⟨rfl, 0, ho, rfl, fun hx => absurd hx (by omega),
      fun j hj => by omega⟩⟩ e).2
  exact this.imp And.left id

theorem firstDifference_unique {m m' : Nat} (h : FirstDifference p m) (h' : FirstDifference p m') : m = m' := by
  rcases Nat.lt_trichotomy m m' with hlt | heq | hgt
  · have := h'.2.2 m h.1 hlt
    rw [h.2.1] at this
    cases this
  · exact heq
  · have := h.2.2 m' h'.1 hgt
    rw [h'.2.1] at this
    cases this

example : InOrder 0 ([.put 0 20, .put 1 21, .get 0, .put 2 22, .close] : List (Op Nat)) :=
  ⟨rfl, rfl, rfl, trivial⟩

example : FirstDifference demo 2 := by
  refine ⟨by decide, by decide, ?_⟩
  intro j h1 h2
  have : j = 1 := by omega
  subst this
  decide

/-- In this run the rows per block become 2. -/
example : ∃ s, Reachable demo (initial demo 0 0 (fun _ => none) 0 [.put 0 20, .put 1 21, .get 0, .put 2 22, .close]) s ∧
    s.rowsPerBlock = 2 :=
  reachable_of_run (ls := [c, c, c, c]) (by decide +kernel)

/-! ## C50: a single time block -/

/-- Put these rows, then close. -/
def putAll (l : List (Nat × V)) : List (Op V) := l.map (fun x => Op.put x.1 x.2) ++ [.close]

/-- Invariant of a column whose rows all have the same key. Not in the code. -/
structure Single (p : Params V K) (l : List (Nat × V)) (s : State V K n) : Prop where
  rpb : s.rowsPerBlock = 0
  writes : s.writes = []
  pc : match s.client with
    | .idle => ∃ l', s.todo = putAll l' ∧ (∀ x ∈ l', x ∈ l) ∧
        ((s.buffer.len = 0 ∧ l' ≠ []) ∨
          (s.changed = true ∧ s.current = 0 ∧ ∃ x ∈ l, s.last = p.key x.1))
    | .store .stop => s.current = 0
    | .stopLock => s.cache ≠ []
    | .failed => s.cache ≠ []
    | _ => False

theorem single_step {f : Nat → Option (Rows V)} {s s' : State V K p.threads} {l : List (Nat × V)}
    (hm : 1 ≤ p.maxCache)
    (hs : ∀ x ∈ l, ∀ y ∈ l, p.differs (p.key x.1) (p.key y.1) = false) (hinv : Inv p f s) (h : Single p l s)
    {lb : Label V p.threads} (e : step p s lb = some s') : Single p l s' := by
  have hstart := hinv.offsets h.rpb
  have hdone := hinv.core.idle hstart
  have hpc0 := h.pc
  cases lb with
  | client junk =>
    have hcl := hinv.client
    unfold ClientOK at hcl
    simp only [step] at e
    unfold clientStep at e
    match hpc : s.client with
    | .idle =>
      simp only [hpc] at e hpc0 hcl
      obtain ⟨l', ht, hsub, hbuf⟩ := hpc0
      have hc := (hcl.2.2 hstart).1
      cases l' with
      | nil =>
        rw [ht] at e
        injection e with e
        rcases hbuf with ⟨_, hx⟩ | ⟨hch, hcur, _⟩
        · exact absurd rfl hx
        · simp only [State.call] at e
          rw [if_pos hch] at e
          subst e
          exact ⟨h.rpb, h.writes, hcur⟩
      | cons x l' =>
        rw [ht] at e
        injection e with e
        have hx : x ∈ l := hsub x List.mem_cons_self
        have hsub' : ∀ y ∈ l', y ∈ l := fun y hy => hsub y (List.mem_cons_of_mem _ hy)
        simp only [State.call, State.put, h.rpb, ne_eq, not_true_eq_false, if_false] at e
        split at e
        · subst e
          exact ⟨rfl, h.writes, l', rfl, hsub', Or.inr ⟨rfl, rfl, x, hx, rfl⟩⟩
        · rename_i hlen
          rcases hbuf with ⟨hx, _⟩ | ⟨hch, hcur, y, hy, hlast⟩
          · exact absurd hx hlen
          · rw [if_neg (by rw [hlast, hs x hx y hy]; simp)] at e
            subst e
            exact ⟨rfl, h.writes, l', rfl, hsub', Or.inr ⟨rfl, hcur, y, hy, hlast⟩⟩
    | .store .stop =>
      simp only [hpc] at e hpc0 hcl
      injection e with e
      have hc := (hcl.2.2 hstart).1
      unfold State.storeBlock at e
      rw [if_neg (by rw [hpc0]; decide), if_neg (by
        rw [hc]
        rintro (hx | hx)
        · simp at hx; omega
        · cases hx)] at e
      subst e
      refine ⟨h.rpb, h.writes, ?_⟩
      show s.cache.insert s.current s.buffer ≠ []
      intro hx
      have := length_insert s.cache s.current s.buffer
      rw [hx] at this
      simp at this
    | .stopLock =>
      simp only [hpc] at e hpc0
      rw [if_pos hstart, if_pos hpc0] at e
      injection e with e
      subst e
      exact ⟨h.rpb, h.writes, hpc0⟩
    | .failed => simp only [hpc] at e; cases e
    | .store (.load _) | .storeWait _ | .load _ | .getLock _ | .getWait _ | .prepStart | .prepLock
    | .prepWait | .prepJoin | .stopWait | .join | .closed | .unsupported => simp only [hpc] at hpc0
  | thread i =>
    simp only [step] at e
    unfold threadStep at e
    rw [hdone i] at e
    cases e
  | spuriousThread i =>
    injection e with e
    subst e
    exact ⟨h.rpb, h.writes, h.pc⟩
  | spuriousClient =>
    injection e with e
    subst e
    refine ⟨h.rpb, h.writes, ?_⟩
    match hpc : s.client with
    | .idle => simp only [hpc, ClientPC.wake] at hpc0 ⊢; exact hpc0
    | .store .stop => simp only [hpc, ClientPC.wake] at hpc0 ⊢; exact hpc0
    | .stopLock => simp only [hpc, ClientPC.wake] at hpc0 ⊢; exact hpc0
    | .failed => simp only [hpc, ClientPC.wake] at hpc0 ⊢; exact hpc0
    | .store (.load _) | .storeWait _ | .load _ | .getLock _ | .getWait _ | .prepStart | .prepLock
    | .prepWait | .prepJoin | .stopWait | .join | .closed | .unsupported => simp only [hpc] at hpc0
  | others m =>
    simp only [step] at e
    split at e
    · cases e
    · injection e with e
      subst e
      exact ⟨h.rpb, h.writes, h.pc⟩

/-- If all rows put into a new column are of one time block, then under every schedule nothing is ever
written, and closing raises the error: the column is never closed, and when no more steps are possible the
error was raised. -/
theorem single_block_fails (hn : 0 < p.threads) (hm : 1 ≤ p.maxCache) {k : K} {l : List (Nat × V)} (hl : l ≠ [])
    (hs : ∀ x ∈ l, ∀ y ∈ l, p.differs (p.key x.1) (p.key y.1) = false) {nBlocks : Nat}
    {file : Nat → Option (Rows V)} {s : State V K p.threads}
    (h : Reachable p (initial p k 0 file nBlocks (putAll l)) s) :
    s.writes = [] ∧ (∀ b, s.file b = none) ∧ s.client ≠ .closed ∧
      ∀ junk, step p s (.client junk) = none → s.client = .failed ∧ s.cache ≠ [] := by
  obtain ⟨ls, e⟩ := h
  obtain ⟨hinv, hsg⟩ := run_induct (P := fun s => Inv p (fileAt 0 file) s ∧ Single p l s)
    (fun s l s' hi he => ⟨step_inv hi.1 hn he, single_step hm hs hi.1 hi.2 he⟩)
    ⟨initial_inv hn k 0 file nBlocks (putAll l), rfl, rfl, l, rfl, fun _ hx => hx, Or.inl ⟨rfl, hl⟩⟩ e
  have hpc0 := hsg.pc
  refine ⟨hsg.writes, fun b => ?_, fun hc => ?_, fun junk hj => ?_⟩
  · rw [hinv.core.file b, hsg.writes]
    rfl
  · rw [hc] at hpc0
    exact hpc0
  · simp only [step] at hj
    unfold clientStep at hj
    match hpc : s.client with
    | .idle =>
      simp only [hpc] at hj hpc0
      obtain ⟨l', ht, _⟩ := hpc0
      cases l' with
      | nil => rw [ht] at hj; cases hj
      | cons x l' => rw [ht] at hj; cases hj
    | .store .stop => simp only [hpc] at hj; cases hj
    | .stopLock =>
      simp only [hpc] at hj
      split at hj <;> split at hj <;> cases hj
    | .failed => simp only [hpc] at hpc0; exact ⟨rfl, hpc0⟩
    | .store (.load _) | .storeWait _ | .load _ | .getLock _ | .getWait _ | .prepStart | .prepLock
    | .prepWait | .prepJoin | .stopWait | .join | .closed | .unsupported => simp only [hpc] at hpc0

/-- Three rows of one time block. -/
def oneBlock : Params Nat Nat := { demo with key := fun _ => 7 }

example : ∀ x ∈ [(0, 20), (1, 21), (2, 22)], ∀ y ∈ [(0, 20), (1, 21), (2, 22)],
    oneBlock.differs (oneBlock.key (x : Nat × Nat).1) (oneBlock.key (y : Nat × Nat).1) = false := by decide

example : ∃ s, Reachable oneBlock (initial oneBlock 0 0 (fun _ => none) 0 (putAll [(0, 20), (1, 21), (2, 22)])) s ∧
    (match s.client with | .failed => true | _ => false) = true :=
  reachable_of_run (ls := [c, c, c, c, c, c]) (by decide +kernel)

end Dysco.Col
