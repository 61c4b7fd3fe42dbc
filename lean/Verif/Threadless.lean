import Verif.ColumnModel

/-!
# C151: a column without threads

A column is left without encoder threads if none can be created (C150), or if `sysconf` reports no processor. It still accepts rows.
-/

namespace Dysco.Col

variable {V K : Type} {p : Params V K}

/-- Nothing was written, and every block that was stored is in the cache. Not in the code. -/
structure Unwritten (f : Nat → Option (Rows V)) (s : State V K p.threads) : Prop where
  file : s.file = f
  writes : s.writes = []
  stopped : s.started = false
  cache : (s.cache.map fun x => (x.1, x.2.rows)).Perm s.stores
  room : s.cache.length ≤ p.maxCache

theorem Unwritten.congr {f : Nat → Option (Rows V)} {s s' : State V K p.threads} (h : Unwritten f s) (h1 : s'.file = s.file)
    (h2 : s'.writes = s.writes) (h3 : s'.started = false) (h4 : s'.cache = s.cache) (h5 : s'.stores = s.stores) : Unwritten f s' :=
  ⟨h1.trans h.file, h2.trans h.writes, h3, by rw [h4, h5]; exact h.cache, by rw [h4]; exact h.room⟩

theorem Unwritten.finish {f : Nat → Option (Rows V)} {s : State V K p.threads} (h : Unwritten f s) (k : Next V) : Unwritten f (s.finish k) := by
  cases k <;> exact h.congr rfl rfl h.stopped rfl rfl

theorem Unwritten.access {f : Nat → Option (Rows V)} {s : State V K p.threads} (h : Unwritten f s) (k : Next V) : Unwritten f (s.access k) := by
  unfold State.access
  split
  · split <;> exact h.congr rfl rfl h.stopped rfl rfl
  · exact h.finish k

theorem Unwritten.start (hp : p.threads = 0) {f : Nat → Option (Rows V)} {s : State V K p.threads} (h : Unwritten f s) : Unwritten f s.start :=
  h.congr rfl rfl (by simp [State.start, hp]) rfl rfl

theorem Unwritten.call (hp : p.threads = 0) {f : Nat → Option (Rows V)} {s : State V K p.threads} (h : Unwritten f s) (op : Op V) :
    Unwritten f (State.call p s op) := by
  cases op with
  | put row v =>
    show Unwritten f (s.put p row v)
    unfold State.put
    split
    · exact h.access _
    split
    · exact h.congr rfl rfl h.stopped rfl rfl
    split
    · split
      · exact h.congr rfl rfl h.stopped rfl rfl
      split
      · exact h.congr rfl rfl h.stopped rfl rfl
      · refine Unwritten.access (Unwritten.start hp ?_) _
        exact h.congr rfl rfl h.stopped rfl rfl
    · exact h.congr rfl rfl h.stopped rfl rfl
  | get row =>
    show Unwritten f (s.get row)
    unfold State.get
    split
    · exact h.congr rfl rfl h.stopped rfl rfl
    split <;> exact h.congr rfl rfl h.stopped rfl rfl
  | close =>
    show Unwritten f (if s.changed then _ else _)
    split <;> exact h.congr rfl rfl h.stopped rfl rfl
  | addColumn =>
    show Unwritten f (if s.nBlocks ≠ 0 then _ else _)
    split
    · exact h
    · exact h.congr rfl rfl h.stopped rfl rfl
  | otherInit rows =>
    show Unwritten f (if s.rowsPerBlock ≠ 0 then _ else _)
    split
    · exact h
    split
    · exact h.congr rfl rfl h.stopped rfl rfl
    split
    · exact h.congr rfl rfl h.stopped rfl rfl
    · exact Unwritten.start hp (h.congr rfl rfl h.stopped rfl rfl)

theorem Unwritten.storeBlock {f : Nat → Option (Rows V)} {s : State V K p.threads} (h : Unwritten f s) (k : After V) :
    Unwritten f (State.storeBlock p s k) := by
  unfold State.storeBlock
  split
  · exact h.congr rfl rfl h.stopped rfl rfl
  split
  · exact h.congr rfl rfl h.stopped rfl rfl
  · rename_i hc
    refine ⟨h.file, h.writes, h.stopped, ?_, ?_⟩
    · have h1 := (List.perm_orderedInsert (fun x y : Nat × Item V => x.1 ≤ y.1) (s.current, ⟨s.buffer, false⟩) s.cache).map
        (fun x => (x.1, x.2.rows))
      refine h1.trans ?_
      rw [List.map_cons]
      exact (List.Perm.cons _ h.cache).trans (List.perm_append_singleton _ _).symm
    · have h1 := (List.perm_orderedInsert (fun x y : Nat × Item V => x.1 ≤ y.1) (s.current, ⟨s.buffer, false⟩) s.cache).length_eq
      show (s.cache.insert s.current s.buffer).length ≤ _
      unfold Cache.insert
      rw [h1, List.length_cons]
      have : ¬ p.maxCache ≤ s.cache.length := fun h => hc (Or.inl h)
      omega

theorem Unwritten.step (hp : p.threads = 0) {f : Nat → Option (Rows V)} {s s' : State V K p.threads} (h : Unwritten f s) {l : Label V p.threads}
    (hs : Col.step p s l = some s') : Unwritten f s' := by
  cases l with
  | client junk =>
    change clientStep p s junk = some s' at hs
    unfold clientStep at hs
    split at hs
    · split at hs
      · cases hs
      · obtain rfl := Option.some.inj hs
        refine Unwritten.call hp ?_ _
        exact h.congr rfl rfl h.stopped rfl rfl
    · obtain rfl := Option.some.inj hs
      exact h.storeBlock _
    · split at hs
      · obtain rfl := Option.some.inj hs
        exact h.congr rfl rfl h.stopped rfl rfl
      · obtain rfl := Option.some.inj hs
        exact h.access _
    · obtain rfl := Option.some.inj hs
      refine Unwritten.finish ?_ _
      exact h.congr rfl rfl h.stopped rfl rfl
    · rw [if_pos h.stopped] at hs
      split at hs <;> obtain rfl := Option.some.inj hs <;> exact h.congr rfl rfl h.stopped rfl rfl
    · split at hs
      · obtain rfl := Option.some.inj hs
        exact h.congr rfl rfl rfl rfl rfl
      · cases hs
    · obtain rfl := Option.some.inj hs
      exact h.congr rfl rfl h.stopped rfl rfl
    · rw [if_pos h.stopped] at hs
      split at hs <;> obtain rfl := Option.some.inj hs <;> exact h.congr rfl rfl h.stopped rfl rfl
    · split at hs
      · obtain rfl := Option.some.inj hs
        split
        · exact Unwritten.start hp (h.congr rfl rfl rfl rfl rfl)
        · exact h.congr rfl rfl rfl rfl rfl
      · cases hs
    all_goals cases hs
  | thread i => exact absurd i.2 (by omega)
  | spuriousThread i => exact absurd i.2 (by omega)
  | spuriousClient =>
    obtain rfl := Option.some.inj hs
    exact h.congr rfl rfl h.stopped rfl rfl
  | others blocks =>
    change (if s.locked then none else _) = some s' at hs
    split at hs
    · cases hs
    · obtain rfl := Option.some.inj hs
      exact h.congr rfl rfl h.stopped rfl rfl

theorem Unwritten.reachable (hp : p.threads = 0) {f : Nat → Option (Rows V)} {s s' : State V K p.threads} (h : Unwritten f s)
    (hr : Reachable p s s') : Unwritten f s' := by
  obtain ⟨ls, hls⟩ := hr
  induction ls generalizing s with
  | nil =>
    obtain rfl := Option.some.inj hls
    exact h
  | cons l ls ih =>
    simp only [run] at hls
    cases hs : Col.step p s l with
    | none => simp [hs] at hls
    | some s1 =>
      rw [hs] at hls
      exact ih (h.step hp hs) hls

/-- **C151**: a column without threads never writes anything, whatever is done with it: every block that was stored stays in the
cache, which has at most `maxCacheSize` blocks. -/
theorem threadless (hp : p.threads = 0) (k : K) (rows : Nat) (file : Nat → Option (Rows V)) (nBlocks : Nat) (todo : List (Op V))
    {s : State V K p.threads} (h : Reachable p (initial p k rows file nBlocks todo) s) :
    s.file = (initial p k rows file nBlocks todo).file ∧ s.writes = [] ∧ (s.cache.map fun x => (x.1, x.2.rows)).Perm s.stores ∧
      s.stores.length ≤ p.maxCache := by
  have h0 : Unwritten (initial p k rows file nBlocks todo).file (initial p k rows file nBlocks todo) := by
    refine ⟨rfl, rfl, ?_, List.Perm.refl _, Nat.zero_le _⟩
    simp [initial, hp]
  have hi := Unwritten.reachable hp h0 h
  refine ⟨hi.file, hi.writes, hi.cache, ?_⟩
  rw [← hi.cache.length_eq, List.length_map]
  exact hi.room

/-- The client is in a call that waits for the cache to become smaller. Not in the code. -/
def Hangs (p : Params V K) (s : State V K p.threads) : Prop :=
  (∃ k, s.client = .store k ∨ s.client = .storeWait k) ∧ s.current ≠ noBlock ∧
      (p.maxCache ≤ s.cache.length ∨ s.cache.has s.current = true) ∨
  ∃ row, (s.client = .getLock row ∨ s.client = .getWait row) ∧ s.cache.has (row / s.rowsPerBlock) = true

theorem Hangs.step (hp : p.threads = 0) {s s' : State V K p.threads} (h : Hangs p s) {l : Label V p.threads}
    (hs : Col.step p s l = some s') : Hangs p s' ∧ s'.todo = s.todo ∧ s'.outs = s.outs ∧ s'.stores = s.stores := by
  cases l with
  | client junk =>
    change clientStep p s junk = some s' at hs
    rcases h with ⟨⟨k, hk | hk⟩, h1, h2⟩ | ⟨row, hk | hk, h1⟩
    · simp only [clientStep, hk] at hs
      obtain rfl := Option.some.inj hs
      have e : State.storeBlock p s k = { s with client := .storeWait k } := by
        unfold State.storeBlock
        rw [if_neg h1, if_pos h2]
      rw [e]
      exact ⟨Or.inl ⟨⟨k, Or.inr rfl⟩, h1, h2⟩, rfl, rfl, rfl⟩
    · simp [clientStep, hk] at hs
    · simp only [clientStep, hk, h1, if_true] at hs
      obtain rfl := Option.some.inj hs
      exact ⟨Or.inr ⟨row, Or.inr rfl, h1⟩, rfl, rfl, rfl⟩
    · simp [clientStep, hk] at hs
  | thread i => exact absurd i.2 (by omega)
  | spuriousThread i => exact absurd i.2 (by omega)
  | spuriousClient =>
    obtain rfl := Option.some.inj hs
    rcases h with ⟨⟨k, hk⟩, h1, h2⟩ | ⟨row, hk, h1⟩
    · exact ⟨Or.inl ⟨⟨k, Or.inl (by rcases hk with hk | hk <;> simp [hk, ClientPC.wake])⟩, h1, h2⟩, rfl, rfl, rfl⟩
    · exact ⟨Or.inr ⟨row, Or.inl (by rcases hk with hk | hk <;> simp [hk, ClientPC.wake]), h1⟩, rfl, rfl, rfl⟩
  | others blocks =>
    change (if s.locked then none else _) = some s' at hs
    split at hs
    · cases hs
    · obtain rfl := Option.some.inj hs
      exact ⟨h, rfl, rfl, rfl⟩

/-- **C151**, waiting: a call on a column without threads that stores a block into a full cache, or that reads a block that is in the
cache, never returns. -/
theorem threadless_stuck (hp : p.threads = 0) {s s' : State V K p.threads} (h : Hangs p s) (hr : Reachable p s s') :
    Hangs p s' ∧ s'.todo = s.todo ∧ s'.outs = s.outs ∧ s'.stores = s.stores := by
  obtain ⟨ls, hls⟩ := hr
  induction ls generalizing s with
  | nil =>
    obtain rfl := Option.some.inj hls
    exact ⟨h, rfl, rfl, rfl⟩
  | cons l ls ih =>
    simp only [run] at hls
    cases hs : Col.step p s l with
    | none => simp [hs] at hls
    | some s1 =>
      rw [hs] at hls
      obtain ⟨h1, h2, h3, h4⟩ := h.step hp hs
      obtain ⟨i1, i2, i3, i4⟩ := ih h1 hls
      exact ⟨i1, i2.trans h2, i3.trans h3, i4.trans h4⟩

/-- **C151**, closing: the next step of closing a column without threads is an exception exactly if a block was stored. -/
theorem threadless_close (hp : p.threads = 0) (k : K) (rows : Nat) (file : Nat → Option (Rows V)) (nBlocks : Nat) (todo : List (Op V))
    {s : State V K p.threads} (h : Reachable p (initial p k rows file nBlocks todo) s) (hc : s.client = .stopLock) (junk : Nat → V) :
    clientStep p s junk = some { s with client := if s.stores = [] then .closed else .failed } := by
  have h0 : Unwritten (initial p k rows file nBlocks todo).file (initial p k rows file nBlocks todo) :=
    ⟨rfl, rfl, by simp [initial, hp], List.Perm.refl _, Nat.zero_le _⟩
  have hi := Unwritten.reachable hp h0 h
  have he : s.cache = [] ↔ s.stores = [] := by
    rw [← List.length_eq_zero_iff, ← List.length_eq_zero_iff, ← hi.cache.length_eq, List.length_map]
  simp only [clientStep, hc, hi.stopped, if_true]
  by_cases hs : s.stores = []
  · simp [he.2 hs, hs]
  · have : s.cache ≠ [] := fun h => hs (he.1 h)
    simp [this, hs]

/-- A column without threads of a table with blocks of one row, and room for one block in the cache. Not in the code. -/
def lonely : Params Nat Nat := ⟨0, maxCacheSize 0, id, fun a b => a != b, fun _ _ r => r⟩

/-- Two rows are accepted, the third call waits for ever with nothing in the file. -/
example : ∃ s, Reachable lonely (initial lonely 0 1 (fun _ => none) 0 [.put 0 7, .put 1 8, .put 2 9, .close]) s ∧ Hangs lonely s ∧
    s.todo = [.close] ∧ s.file 0 = none ∧
    ∀ s', Reachable lonely s s' → s'.todo = [.close] ∧ s'.file 0 = none := by
  let ls : List (Label Nat lonely.threads) := List.replicate 7 (.client fun _ => 0)
  obtain ⟨s, hs, h1, h2, h3, h4, h5⟩ : ∃ s, run lonely (initial lonely 0 1 (fun _ => none) 0 [.put 0 7, .put 1 8, .put 2 9, .close]) ls =
      some s ∧ s.client = .storeWait (.load (.put 2 9)) ∧ s.current = 1 ∧ s.cache.length = 1 ∧ s.todo = [.close] ∧ s.started = false :=
    ⟨_, rfl, rfl, rfl, rfl, rfl, rfl⟩
  have hst : Hangs lonely s := Or.inl ⟨⟨_, Or.inr h1⟩, by rw [h2]; decide, Or.inl (by rw [h3]; decide)⟩
  have hi : Unwritten (p := lonely) (fun _ => none) s := Unwritten.reachable rfl ⟨rfl, rfl, rfl, List.Perm.refl _, Nat.zero_le _⟩ ⟨ls, hs⟩
  exact ⟨s, ⟨ls, hs⟩, hst, h4, congrFun hi.file 0, fun s' h' =>
    ⟨((threadless_stuck rfl hst h').2.1).trans h4, congrFun (hi.reachable rfl h').file 0⟩⟩

end Dysco.Col
