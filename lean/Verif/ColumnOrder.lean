import Verif.ColumnWhole

/-!
# One encoder thread: the order of writing

With a static seed a column uses one encoder thread (dyscodatacolumn.cc:107-115), with a generator in its
initial state (dyscodatacolumn.cc:82-87), "to avoid randomizing the results". The generator is advanced by every
block that is encoded, so the bytes of a block depend on the blocks that were encoded before it.
-/

namespace Dysco.Col
variable {V K : Type} {n : Nat} {p : Params V K} {f : Nat → Option (Rows V)}

/-- `DyscoDataColumn::defaultThreadCount`, dyscodatacolumn.cc:107-115, and the one of the base class,
threadeddyscocolumn.cc:243-246: `min(8l, sysconf(_SC_NPROCESSORS_ONLN))` converted to `size_t`. -/
def threadCount (randomize : Bool) (processors : Int) : Nat :=
  if randomize then (min 8 processors % 2 ^ 64).toNat else 1

/-- The generator runs through the blocks in the order in which they are written: each block is encoded with the
state that the previous one left. `enc` is `EncodeWithDithering` (dyscodatacolumn.cc:89-95) with the state of
the generator made explicit; the result are the bytes of each block in order. -/
def encodeAll {G B : Type} (enc : G → List (Option V) → B × G) : G → List (Nat × List (Option V)) → List (Nat × B)
  | _, [] => []
  | g, (b, r) :: l => (b, (enc g r).1) :: encodeAll enc (enc g r).2 l

/-- The rows of a buffer. -/
def Rows.toList (r : Rows V) : List (Option V) := (List.range r.len).map r.get

/-- The bytes that a column with one encoder thread wrote, in order. -/
def bytes {G B : Type} (enc : G → List (Option V) → B × G) (g : G) (s : State V K n) : List (Nat × B) :=
  encodeAll enc g (s.writes.map fun x => (x.1, x.2.toList))

/-! ## What a step of the client does to the cache -/

/-- Nothing happens to the cache. -/
structure Quiet (s s' : State V K n) : Prop where
  cache : s'.cache = s.cache
  stores : s'.stores = s.stores
  writes : s'.writes = s.writes
  threads : ∀ i, s'.threads i = s.threads i ∨ s'.threads i = (s.threads i).wake ∨
    s.cache = [] ∧ s'.threads i = .head

/-- A block is put into the cache. -/
def Inserted (s s' : State V K n) : Prop :=
  ∃ b r, s.cache.has b = false ∧ s'.cache = s.cache.insert b r ∧ s'.stores = s.stores ++ [(b, r)] ∧
    s'.writes = s.writes ∧ ∀ i, s'.threads i = (s.threads i).wake

theorem quiet_access (s : State V K n) (k : Next V) : Quiet s (s.access k) := by
  have h := (access_same s k).1
  exact ⟨h.cache, h.stores, h.writes, fun i => Or.inl (by rw [h.threads])⟩

theorem quiet_call (s : State V K n) (op : Op V) : Quiet s (State.call p s op) := by
  have hq : ∀ s' : State V K n, s'.cache = s.cache → s'.stores = s.stores → s'.writes = s.writes →
      s'.threads = s.threads → Quiet s s' := fun s' h1 h2 h3 h4 => ⟨h1, h2, h3, fun i => Or.inl (by rw [h4])⟩
  cases op with
  | put row v =>
    simp only [State.call, State.put]
    split
    · exact quiet_access s _
    · split
      · exact hq _ rfl rfl rfl rfl
      · split
        · split
          · exact hq _ rfl rfl rfl rfl
          · split
            · exact hq _ rfl rfl rfl rfl
            · rename_i hc
              have hc : s.cache = [] := by simpa using hc
              have h := (access_same (({ s with rowsPerBlock := row } : State V K n).start) (.put row v)).1
              exact ⟨h.cache, h.stores, h.writes, fun i => Or.inr (Or.inr ⟨hc, by rw [h.threads]; rfl⟩)⟩
        · exact hq _ rfl rfl rfl rfl
  | get row =>
    simp only [State.call, State.get]
    split
    · exact hq _ rfl rfl rfl rfl
    · split <;> exact hq _ rfl rfl rfl rfl
  | close =>
    simp only [State.call]
    split <;> exact hq _ rfl rfl rfl rfl
  | addColumn =>
    simp only [State.call]
    split <;> exact hq _ rfl rfl rfl rfl
  | otherInit rows =>
    simp only [State.call]
    split
    · exact hq _ rfl rfl rfl rfl
    · split
      · exact hq _ rfl rfl rfl rfl
      · split
        · exact hq _ rfl rfl rfl rfl
        · rename_i hc
          exact ⟨rfl, rfl, rfl, fun i => Or.inr (Or.inr ⟨by simpa using hc, rfl⟩)⟩

theorem client_quiet {s s' : State V K n} (hinv : Inv p f s) {junk : Nat → V}
    (e : clientStep p s junk = some s') : Quiet s s' ∨ Inserted s s' := by
  have hq : ∀ s' : State V K n, s'.cache = s.cache → s'.stores = s.stores → s'.writes = s.writes →
      s'.threads = s.threads → Quiet s s' := fun s' h1 h2 h3 h4 => ⟨h1, h2, h3, fun i => Or.inl (by rw [h4])⟩
  have hcl := hinv.client
  unfold ClientOK at hcl
  unfold clientStep at e
  match hpc : s.client with
  | .idle =>
    simp only [hpc] at e
    cases ht : s.todo with
    | nil => rw [ht] at e; cases e
    | cons op rest =>
      rw [ht] at e
      injection e with e
      subst e
      have h := quiet_call (p := p) { s with client := .idle, todo := rest } op
      exact Or.inl ⟨h.cache, h.stores, h.writes, h.threads⟩
  | .store k =>
    simp only [hpc] at e
    injection e with e
    subst e
    unfold State.storeBlock
    split
    · exact Or.inl (hq _ rfl rfl rfl rfl)
    · split
      · exact Or.inl (hq _ rfl rfl rfl rfl)
      · rename_i h
        push Not at h
        exact Or.inr ⟨s.current, s.buffer, by simpa using h.2, rfl, rfl, rfl, fun _ => rfl⟩
  | .getLock row =>
    simp only [hpc] at e
    split at e
    · injection e with e; subst e; exact Or.inl (hq _ rfl rfl rfl rfl)
    · injection e with e; subst e; exact Or.inl (quiet_access s _)
  | .load k =>
    simp only [hpc] at e
    injection e with e
    subst e
    have h := (finish_same (State.loadBlock p s (k.row / s.rowsPerBlock) junk) k).1
    exact Or.inl (hq _ h.cache h.stores h.writes h.threads)
  | .stopLock =>
    simp only [hpc] at e
    left
    split at e
    · split at e <;> (injection e with e; subst e; exact hq _ rfl rfl rfl rfl)
    · split at e
      · injection e with e; subst e; exact hq _ rfl rfl rfl rfl
      · injection e with e; subst e; exact ⟨rfl, rfl, rfl, fun i => Or.inr (Or.inl rfl)⟩
  | .join =>
    simp only [hpc] at e
    split at e
    · injection e with e; subst e; exact Or.inl (hq _ rfl rfl rfl rfl)
    · cases e
  | .prepStart =>
    simp only [hpc] at e
    injection e with e; subst e; exact Or.inl (hq _ rfl rfl rfl rfl)
  | .prepLock =>
    simp only [hpc] at e
    left
    split at e
    · split at e <;> (injection e with e; subst e; exact hq _ rfl rfl rfl rfl)
    · split at e
      · injection e with e; subst e; exact hq _ rfl rfl rfl rfl
      · injection e with e; subst e; exact ⟨rfl, rfl, rfl, fun i => Or.inr (Or.inl rfl)⟩
  | .prepJoin =>
    simp only [hpc] at e hcl
    left
    split at e
    · injection e with e
      subst e
      split
      · exact ⟨rfl, rfl, rfl, fun i => Or.inr (Or.inr ⟨hcl.2.1, rfl⟩)⟩
      · exact hq _ rfl rfl rfl rfl
    · cases e
  | .storeWait _ | .getWait _ | .stopWait | .prepWait | .closed | .failed | .unsupported =>
    simp only [hpc] at e; cases e

/-! ## The line of blocks to be written -/

/-- The blocks of the cache with their rows. -/
def pend (c : Cache V) : List (Nat × Rows V) := c.map fun x => (x.1, x.2.rows)

/-- No block of the cache is being written. Not in the code. -/
def Fresh (c : Cache V) : Prop := ∀ x ∈ c, x.2.writing = false

/-- With `i` the only thread: the cache holds the blocks that are stored and not written, in the order of
storing, and the first one is the one being encoded. -/
def Line (s : State V K n) (i : Fin n) : Prop :=
  match s.threads i with
  | .encode b r => ∃ rest, s.cache = (b, ⟨r, true⟩) :: rest ∧ Fresh rest ∧ s.stores = s.writes ++ (b, r) :: pend rest
  | .written b => ∃ r rest, s.cache = (b, ⟨r, true⟩) :: rest ∧ Fresh rest ∧ s.stores = s.writes ++ pend rest ∧
      (b, r) ∈ s.writes
  | _ => Fresh s.cache ∧ s.stores = s.writes ++ pend s.cache

/-- All blocks in the cache were stored. -/
theorem Line.stored {s : State V K n} {i : Fin n} (h : Line s i) : ∀ x ∈ s.cache, (x.1, x.2.rows) ∈ s.stores := by
  intro x hx
  unfold Line at h
  split at h
  · obtain ⟨rest, h1, _, h3⟩ := h
    rw [h1] at hx
    rw [h3]
    rcases List.mem_cons.mp hx with rfl | hx
    · exact List.mem_append_right _ (List.mem_cons_self)
    · exact List.mem_append_right _ (List.mem_cons_of_mem _ (List.mem_map_of_mem hx))
  · obtain ⟨r, rest, h1, _, h3, h4⟩ := h
    rw [h1] at hx
    rw [h3]
    rcases List.mem_cons.mp hx with rfl | hx
    · exact List.mem_append_left _ h4
    · exact List.mem_append_right _ (List.mem_map_of_mem hx)
  · rw [h.2]
    exact List.mem_append_right _ (List.mem_map_of_mem hx)

/-- A block larger than all others goes to the end of the cache. -/
theorem insert_last (c : Cache V) (b : Nat) (r : Rows V) (h : ∀ x ∈ c, x.1 < b) :
    c.insert b r = c ++ [(b, ⟨r, false⟩)] := by
  unfold Cache.insert
  induction c with
  | nil => rfl
  | cons x c ih =>
    have hx := h x List.mem_cons_self
    rw [List.orderedInsert_cons, if_neg (by simp; omega), ih fun y hy => h y (List.mem_cons_of_mem _ hy)]
    rfl

theorem Line.quiet {s s' : State V K n} {i : Fin n} (h : Line s i) (q : Quiet s s') : Line s' i := by
  unfold Line at h ⊢
  rw [q.cache, q.stores, q.writes]
  rcases q.threads i with e | e | ⟨hc, e⟩
  · rw [e]; exact h
  · rw [e]
    cases ht : s.threads i <;> rw [ht] at h <;> exact h
  · rw [e]
    cases ht : s.threads i <;> rw [ht] at h <;> rw [hc] at h ⊢
    case encode => obtain ⟨_, h, _⟩ := h; cases h
    case written => obtain ⟨_, _, h, _⟩ := h; cases h
    all_goals exact h

theorem Line.inserted {s s' : State V K n} {i : Fin n} (h : Line s i) (q : Inserted s s')
    (hs : s'.stores.Pairwise fun x y => x.1 ≤ y.1) : Line s' i := by
  obtain ⟨b, r, hb, e1, e2, e3, e4⟩ := q
  have hlt : ∀ x ∈ s.cache, x.1 < b := by
    intro x hx
    rw [e2] at hs
    have := (List.pairwise_append.mp hs).2.2 _ (h.stored x hx) _ List.mem_cons_self
    have hne : x.1 ≠ b := by
      intro hxb
      subst hxb
      exact (has_false _ _).mp hb x.2 hx
    simp only at this
    omega
  rw [insert_last _ _ _ hlt] at e1
  unfold Line at h ⊢
  rw [e1, e2, e3, e4 i]
  have hf : ∀ c : Cache V, Fresh c → Fresh (c ++ [(b, ⟨r, false⟩)]) := by
    intro c hc x hx
    rcases List.mem_append.mp hx with hx | hx
    · exact hc x hx
    · rw [List.mem_singleton.mp hx]
  have hp : ∀ c : Cache V, pend (c ++ [(b, ⟨r, false⟩)]) = pend c ++ [(b, r)] := by
    intro c
    simp [pend]
  cases ht : s.threads i <;> rw [ht] at h <;> simp only [ThreadPC.wake]
  case encode b0 r0 =>
    obtain ⟨rest, h1, h2, h3⟩ := h
    exact ⟨rest ++ [(b, ⟨r, false⟩)], by rw [h1]; rfl, hf _ h2, by rw [h3, hp]; simp⟩
  case written b0 =>
    obtain ⟨r0, rest, h1, h2, h3, h4⟩ := h
    exact ⟨r0, rest ++ [(b, ⟨r, false⟩)], by rw [h1]; rfl, hf _ h2, by rw [h3, hp]; simp, h4⟩
  all_goals exact ⟨hf _ h.1, by rw [h.2, hp]; simp⟩

theorem take_notin (c : Cache V) (b : Nat) (h : ∀ x ∈ c, x.1 ≠ b) : c.take b = c := by
  unfold Cache.take
  conv_rhs => rw [← List.map_id c]
  exact List.map_congr_left fun x hx => by rw [if_neg (h x hx)]; rfl

theorem remove_notin (c : Cache V) (b : Nat) (h : ∀ x ∈ c, x.1 ≠ b) : c.remove b = c := by
  unfold Cache.remove
  exact List.filter_eq_self.mpr fun x hx => by simpa using h x hx

theorem Line.seek {s : State V K n} {i : Fin n} (hk : (s.cache.map (·.1)).Nodup)
    (h : Fresh s.cache ∧ s.stores = s.writes ++ pend s.cache) : Line (s.seek i) i := by
  unfold State.seek
  cases hc : s.cache with
  | nil =>
    rw [hc] at h
    simp only [Cache.available, List.find?_nil]
    unfold Line
    simp only [Function.update_self]
    cases s.stop <;> exact h
  | cons x rest =>
    obtain ⟨b, it⟩ := x
    rw [hc] at h hk
    have hw : it.writing = false := h.1 (b, it) List.mem_cons_self
    have ha : Cache.available ((b, it) :: rest) = some (b, it) := by
      unfold Cache.available
      rw [List.find?_cons_of_pos (by simp [hw])]
    rw [ha]
    unfold Line
    simp only [Function.update_self]
    refine ⟨rest, ?_, fun x hx => h.1 x (List.mem_cons_of_mem _ hx), h.2⟩
    have hne : ∀ x ∈ rest, x.1 ≠ b := by
      intro x hx hxb
      simp only [List.map_cons, List.nodup_cons] at hk
      exact hk.1 (List.mem_map.mpr ⟨x, hx, hxb⟩)
    have := take_notin rest b hne
    unfold Cache.take at this ⊢
    rw [List.map_cons, this, if_pos rfl]

theorem Line.thread {s s' : State V K n} {i : Fin n} (hk : (s.cache.map (·.1)).Nodup) (h : Line s i)
    (e : threadStep s i = some s') : Line s' i := by
  unfold threadStep at e
  unfold Line at h
  cases ht : s.threads i with
  | head =>
    rw [ht] at e h
    simp only at e h
    split at e
    · injection e with e
      subst e
      unfold Line
      simp only [Function.update_self]
      exact h
    · injection e with e
      subst e
      exact Line.seek hk h
  | woken =>
    rw [ht] at e h
    simp only at e h
    injection e with e
    subst e
    exact Line.seek hk h
  | encode b r =>
    rw [ht] at e h
    simp only at e h
    split at e
    · cases e
    · injection e with e
      subst e
      obtain ⟨rest, h1, h2, h3⟩ := h
      unfold Line
      simp only [Function.update_self]
      exact ⟨r, rest, h1, h2, by rw [h3]; simp, by simp⟩
  | written b =>
    rw [ht] at e h
    simp only at e h
    injection e with e
    subst e
    obtain ⟨r, rest, h1, h2, h3, _⟩ := h
    have hr : s.cache.remove b = rest := by
      rw [h1] at hk ⊢
      have hne : ∀ x ∈ rest, x.1 ≠ b := by
        intro x hx hxb
        simp only [List.map_cons, List.nodup_cons] at hk
        exact hk.1 (List.mem_map.mpr ⟨x, hx, hxb⟩)
      have := remove_notin rest b hne
      unfold Cache.remove at this ⊢
      rw [List.filter_cons_of_neg (by simp), this]
    unfold Line State.notify
    simp only [Function.update_self, ThreadPC.wake, hr]
    exact ⟨h2, h3⟩
  | wait => rw [ht] at e; cases e
  | done => rw [ht] at e; cases e

theorem step_stores {s s' : State V K p.threads} (hinv : Inv p f s) {l : Label V p.threads}
    (e : step p s l = some s') : s.stores <+: s'.stores := by
  by_cases hl : ∀ junk, l ≠ .client junk
  · rw [(other_own e hl).1.stores]
  · push Not at hl
    obtain ⟨junk, rfl⟩ := hl
    rcases client_quiet hinv e with h | ⟨b, r, _, _, h, _⟩
    · rw [h.stores]
    · rw [h]; exact List.prefix_append _ _

theorem line_step {s s' : State V K p.threads} (h1 : p.threads = 1) (hinv : Inv p f s) (i : Fin p.threads)
    (h : Line s i) {l : Label V p.threads} (e : step p s l = some s')
    (hs : s'.stores.Pairwise fun x y => x.1 ≤ y.1) : Line s' i := by
  have hsub : ∀ j : Fin p.threads, j = i := by
    intro j
    apply Fin.ext
    have := j.isLt
    have := i.isLt
    omega
  cases l with
  | client junk =>
    rcases client_quiet hinv e with q | q
    · exact h.quiet q
    · exact h.inserted q hs
  | thread j => rw [hsub j] at e; exact h.thread hinv.core.keys e
  | spuriousThread j =>
    injection e with e
    subst e
    rw [hsub j]
    exact h.quiet ⟨rfl, rfl, rfl, fun k => Or.inr (Or.inl (by rw [hsub k]; simp))⟩
  | spuriousClient =>
    injection e with e
    subst e
    exact h.quiet ⟨rfl, rfl, rfl, fun k => Or.inl rfl⟩
  | others m =>
    simp only [step] at e
    split at e
    · cases e
    · injection e with e
      subst e
      exact h.quiet ⟨rfl, rfl, rfl, fun k => Or.inl rfl⟩

/-! ## C74 -/

/-- One encoder thread, and blocks stored in ascending order: under every schedule the blocks are written in the
order in which they were stored. -/
theorem writes_in_order (h1 : p.threads = 1) {k : K} {rows nBlocks : Nat} {file : Nat → Option (Rows V)}
    {todo : List (Op V)} {s : State V K p.threads} (h : Reachable p (initial p k rows file nBlocks todo) s)
    (hs : s.stores.Pairwise fun x y => x.1 ≤ y.1) : s.writes <+: s.stores ∧ (s.cache = [] → s.writes = s.stores) := by
  obtain ⟨ls, e⟩ := h
  have hn : 0 < p.threads := by omega
  obtain ⟨_, hline⟩ := run_induct (P := fun s => Inv p (if rows = 0 then fun _ => none else file) s ∧
      ((s.stores.Pairwise fun x y => x.1 ≤ y.1) → ∀ i, Line s i))
    (fun s l s' hi he => ⟨step_inv hi.1 hn he, fun hs' i =>
      line_step h1 hi.1 i (hi.2 (hs'.sublist (step_stores hi.1 he).sublist) i) he hs'⟩)
    ⟨initial_inv hn k rows file nBlocks todo, fun _ i => by
      unfold Line initial
      by_cases hr : rows = 0
      · simp only [hr, if_true]; exact ⟨fun x hx => absurd hx List.not_mem_nil, rfl⟩
      · simp only [hr, if_false]; exact ⟨fun x hx => absurd hx List.not_mem_nil, rfl⟩⟩ e
  have h := hline hs ⟨0, hn⟩
  unfold Line at h
  split at h
  · obtain ⟨rest, h2, _, h3⟩ := h
    exact ⟨h3 ▸ List.prefix_append _ _, fun hc => by rw [hc] at h2; cases h2⟩
  · obtain ⟨r, rest, h2, _, h3, _⟩ := h
    exact ⟨h3 ▸ List.prefix_append _ _, fun hc => by rw [hc] at h2; cases h2⟩
  · exact ⟨h.2 ▸ List.prefix_append _ _, fun hc => by rw [h.2, hc]; simp [pend]⟩

/-- All rows put in order and in whole blocks, then closed: under every schedule of one encoder thread the bytes
of the blocks are the same function of the rows and the initial state of the generator. -/
theorem seeded_bytes (h1 : p.threads = 1) {m q rows0 nBlocks : Nat} {v : Nat → V}
    {todo : List (Op V)} {k : K} {s : State V K p.threads} (hm : 0 < m) (hq : 0 < q) (hR : q * m ≤ noBlock)
    (hsame : ∀ r, 0 < r → r < m → p.differs (p.key r) (p.key 0) = false)
    (hdiff : m < q * m → p.differs (p.key m) (p.key 0) = true)
    (hrows : rows0 = m ∨ rows0 = 0 ∧ m < q * m) (hw : Whole m v (q * m) 0 todo)
    (h : Reachable p (initial p k rows0 (fun _ => none) nBlocks todo) s) (hcl : s.client = .closed)
    {G B : Type} (enc : G → List (Option V) → B × G) (g : G) :
    bytes enc g s = encodeAll enc g
      ((List.range q).map fun b => (b, (List.range m).map fun j => some (v (b * m + j)))) := by
  have hn : 0 < p.threads := by omega
  have hR0 : 0 < q * m := Nat.mul_pos hq hm
  have h' := h
  obtain ⟨ls, e⟩ := h
  obtain ⟨hinv, hok⟩ := run_induct (P := fun s => Inv p (fun _ => none) s ∧ WholeOK p m v (q * m) s)
    (fun s l s' hi he => ⟨step_inv hi.1 hn he, whole_step hm hR0 hR hsame hdiff hi.1 hi.2 he⟩)
    ⟨by have := initial_inv (p := p) hn k rows0 (fun _ => none) nBlocks todo
        rwa [show (if rows0 = 0 then fun _ => none else fun _ => none) = (fun _ => none : Nat → Option (Rows V)) from
          by split <;> rfl] at this, whole_initial hrows hw⟩ e
  have hcache : s.cache = [] := by
    have := hinv.client
    unfold ClientOK at this
    rw [hcl] at this
    exact this.2.2
  unfold WholeOK at hok
  rw [hcl] at hok
  obtain ⟨_, gr, hg, hfill⟩ := hok
  have hlast : (q * m - 1) / m + 1 = q := by
    obtain ⟨q', rfl⟩ : ∃ q', q = q' + 1 := ⟨q - 1, by omega⟩
    rw [div_last hm]
  rw [hlast] at hg hfill
  have hord : s.stores.Pairwise fun x y => x.1 ≤ y.1 := by
    rw [hg, List.pairwise_map]
    exact (List.pairwise_lt_range (n := q)).imp fun h => Nat.le_of_lt h
  have hwr := (writes_in_order h1 h' hord).2 hcache
  unfold bytes
  rw [hwr, hg, List.map_map]
  congr 1
  refine List.map_congr_left fun b hb => ?_
  have hb := List.mem_range.mp hb
  have hf := hfill b hb
  have hri : rowsIn m (q * m) b = m := by
    unfold rowsIn
    have : (b + 1) * m ≤ q * m := Nat.mul_le_mul_right m hb
    rw [Nat.add_mul, Nat.one_mul] at this
    omega
  rw [hri] at hf
  have hlen : (gr b).len = m := Nat.le_antisymm hf.len hf.count
  simp only [Function.comp, Rows.toList, hlen]
  congr 1
  exact List.map_congr_left fun j hj => hf.get j (List.mem_range.mp hj)

/-- So two runs give the same bytes. -/
theorem seeded_deterministic (h1 : p.threads = 1) {m q rows0 nBlocks nBlocks' : Nat} {v : Nat → V}
    {todo todo' : List (Op V)} {k k' : K} {s s' : State V K p.threads} (hm : 0 < m) (hq : 0 < q) (hR : q * m ≤ noBlock)
    (hsame : ∀ r, 0 < r → r < m → p.differs (p.key r) (p.key 0) = false)
    (hdiff : m < q * m → p.differs (p.key m) (p.key 0) = true)
    (hrows : rows0 = m ∨ rows0 = 0 ∧ m < q * m)
    (hw : Whole m v (q * m) 0 todo) (hw' : Whole m v (q * m) 0 todo')
    (h : Reachable p (initial p k rows0 (fun _ => none) nBlocks todo) s) (hcl : s.client = .closed)
    (h' : Reachable p (initial p k' rows0 (fun _ => none) nBlocks' todo') s') (hcl' : s'.client = .closed)
    {G B : Type} (enc : G → List (Option V) → B × G) (g : G) : bytes enc g s = bytes enc g s' := by
  rw [seeded_bytes h1 hm hq hR hsame hdiff hrows hw h hcl, seeded_bytes h1 hm hq hR hsame hdiff hrows hw' h' hcl']

/-- The number of threads. -/
theorem threadCount_spec : (∀ x, threadCount false x = 1) ∧
    (∀ x, 1 ≤ x → 1 ≤ threadCount true x ∧ threadCount true x ≤ 8 ∧ (threadCount true x : Int) ≤ x) := by
  refine ⟨fun _ => rfl, fun x hx => ?_⟩
  unfold threadCount
  rw [if_pos rfl, Int.emod_eq_of_lt (by omega) (by omega)]
  omega

/-- If the number of processors is not available, `sysconf` returns -1, and as many threads are created as
possible. -/
theorem threadCount_error : threadCount true (-1) = 2 ^ 64 - 1 := by decide

/-! ### Blocks in descending order -/

/-- A reopened column with blocks of two rows; one thread, room for two blocks. -/
def seeded : Params Nat Nat := { demo with maxCache := 2 }

/-- Write block 1, then block 0. -/
def downward : List (Op Nat) := [.put 2 22, .put 3 23, .put 0 20, .put 1 21, .close]

/-- The column is closed. Not in the code. -/
def isClosed : ClientPC V → Bool
  | .closed => true
  | _ => false

theorem isClosed_iff {pc : ClientPC V} : isClosed pc = true ↔ pc = .closed := by
  cases pc <;> simp [isClosed]

/-- With one thread and a fixed seed the bytes still depend on the schedule if a later block is put before an
earlier one: the thread takes the first block of the cache, not the oldest. Here the generator counts the blocks,
and the same program ends with block 0 encoded as the first or as the second. -/
theorem seeded_order_matters :
    ∃ s s', Reachable seeded (initial seeded 0 2 (fun _ => none) 0 downward) s ∧
      Reachable seeded (initial seeded 0 2 (fun _ => none) 0 downward) s' ∧
      s.client = .closed ∧ s'.client = .closed ∧ s.stores.map (·.1) = s'.stores.map (·.1) ∧
      bytes (fun (g : Nat) _ => (g, g + 1)) 0 s = [(0, 0), (1, 1)] ∧
      bytes (fun (g : Nat) _ => (g, g + 1)) 0 s' = [(1, 0), (0, 1)] := by
  obtain ⟨s, hs, e⟩ := reachable_of_run (p := seeded) (s0 := initial seeded 0 2 (fun _ => none) 0 downward)
    (g := fun s => (isClosed s.client, s.stores.map (·.1), bytes (fun (g : Nat) _ => (g, g + 1)) 0 s))
    (ls := [c, c, c, c, c, c, c, c, c, t, t, t, t, t, t, t, c, t, c])
    (a := (true, [1, 0], [(0, 0), (1, 1)])) (by decide +kernel)
  obtain ⟨s', hs', e'⟩ := reachable_of_run (p := seeded) (s0 := initial seeded 0 2 (fun _ => none) 0 downward)
    (g := fun s => (isClosed s.client, s.stores.map (·.1), bytes (fun (g : Nat) _ => (g, g + 1)) 0 s))
    (ls := [c, c, c, c, c, t, t, t, c, c, c, c, t, t, t, t, c, t, c])
    (a := (true, [1, 0], [(1, 0), (0, 1)])) (by decide +kernel)
  simp only [Prod.mk.injEq] at e e'
  exact ⟨s, s', hs, hs', isClosed_iff.mp e.1, isClosed_iff.mp e'.1, e.2.1.trans e'.2.1.symm, e.2.2, e'.2.2⟩

/-- The hypotheses of `seeded_bytes` hold for a new column with two blocks of two rows that is closed. -/
example : ∃ s, Reachable demo (initial demo 0 0 (fun _ => none) 0
      [.put 0 20, .put 1 21, .put 2 22, .put 3 23, .close]) s ∧
    (isClosed s.client, bytes (fun (g : Nat) r => (r.map fun x => x.map (· + g), g + 1)) 0 s) =
      (true, [(0, [some 20, some 21]), (1, [some 23, some 24])]) :=
  reachable_of_run (ls := [c, c, c, c, c, c, c, c, t, t, t, t, t, t, t, c, t, c]) (by decide +kernel)

end Dysco.Col
