import Verif.ThreadGroup

/-!
# C150: when a thread cannot be started

`initializeRowsPerBlock` (dyscostman.cc:261-282) sets the layout and starts the threads of all columns. Creating a `std::thread` can
fail, which raises an exception in the middle of this function.
-/

namespace Dysco.Threads

/-- A column as far as `initializeRowsPerBlock` is concerned: `size` is `CalculateBlockSize`, `count` is `defaultThreadCount`,
`cached` the number of blocks in `_cache`. threadeddyscocolumn.h:203-226, dyscostmancol.h:116-117. -/
structure Col where
  size : Nat → Nat → Nat
  count : Nat
  bits : Nat
  cached : Nat := 0
  blockSize : Nat := 0
  antennas : Nat := 0
  offset : Nat := 0
  group : Group := {}

/-- A manager as far as this function is concerned; `header` counts the calls of `writeHeader`. dyscostman.h:386-406. -/
structure Manager where
  rowsPerBlock : Nat := 0
  antennas : Nat := 0
  blockSize : Nat := 0
  cols : List Col
  header : Nat := 0

/-- `stopThreads`, threadeddyscocolumn.cc:50-71; false: an exception. If there are threads they empty the cache first (C45). -/
def Col.stop (c : Col) : Col × Bool :=
  if c.group.empty then (c, c.cached == 0)
  else ({ c with cached := 0, group := c.group.joinAll.1 }, c.group.joinAll.2 == .done)

/-- The loop that creates the threads, threadeddyscocolumn.cc:268. `ok j` says whether thread `j` can be created. -/
def startLoop (ok : Nat → Bool) (n j : Nat) (g : Group) : Group × Bool :=
  match n with
  | 0 => (g, true)
  | n + 1 =>
    match g.create (ok j) with
    | (g, .done) => startLoop ok n (j + 1) g
    | (g, _) => (g, false)

/-- `InitializeAfterNRowsPerBlockIsKnown`, threadeddyscocolumn.cc:249-269; false: an exception. -/
def Col.initialize (c : Col) (rows ants : Nat) (ok : Nat → Bool) : Col × Bool :=
  match c.stop with
  | (c, false) => (c, false)
  | (c, true) =>
    if c.bits = 0 then (c, false)
    else
      let r := startLoop ok c.count 0 c.group
      ({ c with antennas := ants, blockSize := c.size rows ants, group := r.1 }, r.2)

/-- The loop over the columns, dyscostman.cc:273-280: `done` are the columns before, `size` is `_blockSize`. `ok i j` says whether
thread `j` of column `i` can be created. -/
def initLoop (rows ants : Nat) (ok : Nat → Nat → Bool) (done : List Col) (size : Nat) : List Col → List Col × Nat × Bool
  | [] => (done, size, true)
  | c :: rest =>
    match Col.initialize { c with offset := size } rows ants (ok done.length) with
    | (c', true) => initLoop rows ants ok (done ++ [c']) (size + c.size rows ants) rest
    | (c', false) => (done ++ c' :: rest, size + c.size rows ants, false)

/-- `areOffsetsInitialized`, dyscostman.h:296. -/
def Manager.initialized (m : Manager) : Bool := m.rowsPerBlock != 0

/-- `initializeRowsPerBlock`, dyscostman.cc:261-282; false: an exception. -/
def Manager.initRows (m : Manager) (rows ants : Nat) (write : Bool) (ok : Nat → Nat → Bool) : Manager × Bool :=
  if m.initialized && (rows != m.rowsPerBlock || ants != m.antennas) then (m, false)
  else
    match initLoop rows ants ok [] 0 m.cols with
    | (cols, size, true) => (⟨rows, ants, size, cols, if write then m.header + 1 else m.header⟩, true)
    | (cols, size, false) => (⟨rows, ants, size, cols, m.header⟩, false)

/-! ## Specification -/

/-- The bytes of a block that lie before column `i`. Not in the code. -/
def before (cols : List Col) (rows ants i : Nat) : Nat := ((cols.take i).map fun c => c.size rows ants).sum

/-- A column that can be initialised: its bits are set, and it has threads or nothing in its cache; its threads were started and
joined by the functions of the group. Not in the code. -/
def Ready (c : Col) : Prop := c.bits ≠ 0 ∧ (∃ k, Good c.group k) ∧ (c.group.empty = true → c.cached = 0)

/-- A column with all that `initializeRowsPerBlock` gives it. Not in the code. -/
def Complete (c c' : Col) (rows ants offset : Nat) : Prop :=
  c'.size = c.size ∧ c'.count = c.count ∧ c'.bits = c.bits ∧ c'.cached = 0 ∧ c'.blockSize = c.size rows ants ∧ c'.antennas = ants ∧
    c'.offset = offset ∧ c'.group.handles.length = c.count ∧ ∃ k, Good c'.group k

theorem create_good {g : Group} {k : Nat} (h : Good g k) : Good (g.create true).1 k := by
  obtain ⟨h1, h2, h3⟩ := h
  refine ⟨Nat.le_succ_of_le h1, h2, ?_⟩
  have e : g.made + 1 - k = (g.made - k) + 1 := by omega
  have e' : k + (g.made - k) = g.made := by omega
  simp only [Group.create, if_true, h3, e]
  rw [List.range'_concat, List.map_append, Nat.one_mul, e']
  rfl

/-- The threads that were started before the first that cannot be. -/
theorem startLoop_spec (ok : Nat → Bool) (n j : Nat) {g : Group} {k : Nat} (h : Good g k) :
    Good (startLoop ok n j g).1 k ∧ ((startLoop ok n j g).2 = true ↔ ∀ i, i < n → ok (j + i) = true) ∧
    ((startLoop ok n j g).2 = true → (startLoop ok n j g).1.handles.length = g.handles.length + n) ∧
    (∀ a, a < n → (∀ i, i < a → ok (j + i) = true) → ok (j + a) = false →
      (startLoop ok n j g).2 = false ∧ (startLoop ok n j g).1.handles.length = g.handles.length + a) := by
  induction n generalizing j g with
  | zero => exact ⟨h, by simp [startLoop], fun _ => rfl, fun a ha => absurd ha (Nat.not_lt_zero _)⟩
  | succ n ih =>
    cases hj : ok j with
    | true =>
      have e : startLoop ok (n + 1) j g = startLoop ok n (j + 1) (g.create true).1 := by
        rw [startLoop, hj]
        rfl
      have hl : (g.create true).1.handles.length = g.handles.length + 1 := by simp [Group.create]
      obtain ⟨i1, i2, i3, i4⟩ := ih (j + 1) (create_good h)
      rw [e]
      refine ⟨i1, i2.trans ⟨fun h i hi => ?_, fun h i hi => ?_⟩, fun h => ?_, fun a ha h1 h2 => ?_⟩
      · cases i with
        | zero => exact hj
        | succ i =>
          have := h i (by omega)
          rwa [Nat.add_assoc, Nat.add_comm 1 i] at this
      · have := h (i + 1) (by omega)
        rwa [Nat.add_assoc, Nat.add_comm 1 i]
      · rw [i3 h, hl]
        omega
      · cases a with
        | zero =>
          rw [Nat.add_zero, hj] at h2
          cases h2
        | succ a =>
          obtain ⟨a1, a2⟩ := i4 a (by omega) (fun i hi => by
            have := h1 (i + 1) (by omega)
            rwa [Nat.add_assoc, Nat.add_comm 1 i]) (by rwa [Nat.add_assoc, Nat.add_comm 1 a])
          exact ⟨a1, by rw [a2, hl]; omega⟩
    | false =>
      have e : startLoop ok (n + 1) j g = (g, false) := by
        rw [startLoop, hj]
        rfl
      rw [e]
      refine ⟨h, ⟨fun h => (by cases h), fun h => ?_⟩, fun h => (by cases h), fun a ha h1 _ => ?_⟩
      · have := h 0 (by omega)
        rw [Nat.add_zero, hj] at this
        cases this
      · cases a with
        | zero => exact ⟨rfl, rfl⟩
        | succ a =>
          have := h1 0 (by omega)
          rw [Nat.add_zero, hj] at this
          cases this

theorem stop_ready {c : Col} (h : Ready c) : ∃ g, c.stop = ({ c with cached := 0, group := g }, true) ∧ g.handles = [] ∧ ∃ k, Good g k := by
  obtain ⟨-, ⟨k, hk⟩, hc⟩ := h
  unfold Col.stop
  by_cases he : c.group.empty = true
  · rw [if_pos he, hc he]
    refine ⟨c.group, ?_, by simpa [Group.empty] using he, k, hk⟩
    have := hc he
    cases c
    simp_all
  · rw [if_neg he, joinAll_good hk]
    exact ⟨_, rfl, rfl, c.group.made, Nat.le_refl _, rfl, by simp⟩

/-- One column: it is complete if all of its threads can be created; otherwise it has those before the first that cannot be. -/
theorem initialize_spec {c : Col} (h : Ready c) (rows ants : Nat) (ok : Nat → Bool) :
    ((∀ i, i < c.count → ok i = true) → (c.initialize rows ants ok).2 = true ∧
      Complete c (c.initialize rows ants ok).1 rows ants c.offset) ∧
    (∀ a, a < c.count → (∀ i, i < a → ok i = true) → ok a = false → (c.initialize rows ants ok).2 = false ∧
      Complete { c with count := a } { (c.initialize rows ants ok).1 with count := a } rows ants c.offset ∧
      (c.initialize rows ants ok).1.count = c.count) := by
  obtain ⟨g, s1, s2, k, s3⟩ := stop_ready h
  obtain ⟨t1, t2, t3, t4⟩ := startLoop_spec ok c.count 0 s3
  have e : c.initialize rows ants ok =
      (⟨c.size, c.count, c.bits, 0, c.size rows ants, ants, c.offset, (startLoop ok c.count 0 g).1⟩, (startLoop ok c.count 0 g).2) := by
    unfold Col.initialize
    rw [s1]
    simp only [if_neg h.1]
  rw [e]
  rw [s2] at t3 t4
  simp only [Nat.zero_add, List.length_nil] at t2 t3 t4
  refine ⟨fun ha => ⟨t2.2 ha, rfl, rfl, rfl, rfl, rfl, rfl, rfl, t3 (t2.2 ha), k, t1⟩, fun a h1 h2 h3 => ?_⟩
  obtain ⟨a1, a2⟩ := t4 a h1 h2 h3
  exact ⟨a1, ⟨rfl, rfl, rfl, rfl, rfl, rfl, rfl, a2, k, t1⟩, rfl⟩

theorem before_cons (c : Col) (cols : List Col) (rows ants i : Nat) :
    before (c :: cols) rows ants (i + 1) = c.size rows ants + before cols rows ants i := by
  simp [before]

/-- The loop over the columns passes those whose threads can all be created. -/
theorem initLoop_pass (rows ants : Nat) (ok : Nat → Nat → Bool) (rest : List Col) (pre done : List Col) (size : Nat)
    (hr : ∀ c ∈ pre, Ready c) (ho : ∀ i c, pre[i]? = some c → ∀ j, j < c.count → ok (done.length + i) j = true) :
    ∃ cols, initLoop rows ants ok done size (pre ++ rest) =
        initLoop rows ants ok (done ++ cols) (size + before pre rows ants pre.length) rest ∧
      cols.length = pre.length ∧
      ∀ i c, pre[i]? = some c → ∃ c', cols[i]? = some c' ∧ Complete c c' rows ants (size + before pre rows ants i) := by
  induction pre generalizing done size with
  | nil => exact ⟨[], by simp [before], rfl, fun i c h => by simp at h⟩
  | cons c pre ih =>
    have h1 : Ready { c with offset := size } := hr c (List.mem_cons_self ..)
    obtain ⟨e1, e2⟩ := (initialize_spec h1 rows ants (ok done.length)).1 (ho 0 c rfl)
    obtain ⟨cols, i1, i2, i3⟩ := ih (done ++ [(Col.initialize { c with offset := size } rows ants (ok done.length)).1])
      (size + c.size rows ants) (fun c' hc => hr c' (List.mem_cons_of_mem _ hc)) (fun i c' hc j hj => by
        have := ho (i + 1) c' (by simpa using hc) j hj
        rwa [List.length_append, List.length_singleton, Nat.add_assoc, Nat.add_comm 1 i])
    generalize hR : Col.initialize { c with offset := size } rows ants (ok done.length) = R at *
    obtain ⟨c', b⟩ := R
    obtain rfl : b = true := e1
    refine ⟨c' :: cols, ?_, by simp [i2], fun i d hd => ?_⟩
    · rw [List.cons_append, initLoop, hR]
      simp only
      rw [i1, List.length_cons, before_cons, List.append_assoc, List.singleton_append, Nat.add_assoc]
    · cases i with
      | zero =>
        obtain rfl : c = d := by simpa using hd
        have e3 : Complete c c' rows ants size := e2
        exact ⟨c', rfl, by simpa [before] using e3⟩
      | succ i =>
        obtain ⟨d', d1, d2⟩ := i3 i d (by simpa using hd)
        exact ⟨d', by simpa using d1, by rwa [before_cons, ← Nat.add_assoc]⟩

/-- `initializeRowsPerBlock` is allowed: no other layout was set. Not in the code. -/
def Manager.Allows (m : Manager) (rows ants : Nat) : Prop := m.rowsPerBlock = 0 ∨ m.rowsPerBlock = rows ∧ m.antennas = ants

theorem allows_guard {m : Manager} {rows ants : Nat} (h : m.Allows rows ants) :
    (m.initialized && (rows != m.rowsPerBlock || ants != m.antennas)) = false := by
  rcases h with h | ⟨h1, h2⟩
  · simp [Manager.initialized, h]
  · simp [h1, h2]

/-- **C150**, success: if all threads can be created, every column gets its place in the block, its block size and its threads. -/
theorem init_complete {m : Manager} {rows ants : Nat} (hm : m.Allows rows ants) (hr : ∀ c ∈ m.cols, Ready c) (write : Bool)
    {ok : Nat → Nat → Bool} (ho : ∀ i c, m.cols[i]? = some c → ∀ j, j < c.count → ok i j = true) :
    ∃ m', m.initRows rows ants write ok = (m', true) ∧ m'.rowsPerBlock = rows ∧ m'.antennas = ants ∧
      m'.blockSize = before m.cols rows ants m.cols.length ∧ m'.header = m.header + (if write then 1 else 0) ∧
      m'.cols.length = m.cols.length ∧
      ∀ i c, m.cols[i]? = some c → ∃ c', m'.cols[i]? = some c' ∧ Complete c c' rows ants (before m.cols rows ants i) := by
  obtain ⟨cols, i1, i2, i3⟩ := initLoop_pass rows ants ok [] m.cols [] 0 hr (by simpa using ho)
  rw [List.append_nil, initLoop, List.nil_append, Nat.zero_add] at i1
  unfold Manager.initRows
  rw [allows_guard hm, i1]
  refine ⟨_, rfl, rfl, rfl, rfl, ?_, i2, fun i c hc => ?_⟩
  · cases write <;> rfl
  · simpa using i3 i c hc

/-- **C150**, failure: if thread `a` of a column is the first that cannot be created, an exception is raised. The header is not
written. The columns before are complete, this column has the first `a` threads, and the columns after it are as they were. Still
the layout counts as initialised from then on, so that later writes do not call `initializeRowsPerBlock` again. -/
theorem init_fails {m : Manager} {rows ants : Nat} (hm : m.Allows rows ants) (hr : ∀ c ∈ m.cols, Ready c) (write : Bool)
    {ok : Nat → Nat → Bool} {pre post : List Col} {c : Col} (hcols : m.cols = pre ++ c :: post)
    (ho : ∀ i d, pre[i]? = some d → ∀ j, j < d.count → ok i j = true)
    {a : Nat} (ha : a < c.count) (ho' : ∀ j, j < a → ok pre.length j = true) (hf : ok pre.length a = false) :
    ∃ m' pre' c', m.initRows rows ants write ok = (m', false) ∧ m'.rowsPerBlock = rows ∧ m'.antennas = ants ∧
      (rows ≠ 0 → m'.initialized = true) ∧ m'.header = m.header ∧ m'.cols = pre' ++ c' :: post ∧ pre'.length = pre.length ∧
      m'.blockSize = before m.cols rows ants (pre.length + 1) ∧
      (∀ i d, pre[i]? = some d → ∃ d', pre'[i]? = some d' ∧ Complete d d' rows ants (before m.cols rows ants i)) ∧
      Complete { c with count := a } { c' with count := a } rows ants (before m.cols rows ants pre.length) ∧ c'.count = c.count := by
  have hrp : ∀ d ∈ pre, Ready d := fun d hd => hr d (by rw [hcols]; exact List.mem_append_left _ hd)
  have hrc : Ready c := hr c (by rw [hcols]; exact List.mem_append_right _ (List.mem_cons_self ..))
  obtain ⟨cols, i1, i2, i3⟩ := initLoop_pass rows ants ok (c :: post) pre [] 0 hrp (by simpa using ho)
  have hb : ∀ i, i ≤ pre.length → before m.cols rows ants i = before pre rows ants i := by
    intro i hi
    unfold before
    rw [hcols, List.take_append_of_le_length hi]
  have hb1 : before m.cols rows ants (pre.length + 1) = before pre rows ants pre.length + c.size rows ants := by
    unfold before
    rw [hcols, List.take_append, List.take_of_length_le (Nat.le_succ _), List.take_of_length_le (Nat.le_refl _)]
    simp
  have hrc' : Ready { c with offset := before pre rows ants pre.length } := hrc
  obtain ⟨f1, f2, f3⟩ := (initialize_spec hrc' rows ants (ok pre.length)).2 a ha ho' hf
  rw [List.nil_append, Nat.zero_add, initLoop, i2] at i1
  generalize hR : Col.initialize { c with offset := before pre rows ants pre.length } rows ants (ok pre.length) = R at *
  obtain ⟨c', b⟩ := R
  obtain rfl : b = false := f1
  simp only at i1
  unfold Manager.initRows
  rw [allows_guard hm, hcols, i1]
  refine ⟨_, cols, c', rfl, rfl, rfl, fun h => by simpa [Manager.initialized] using h, rfl, rfl, i2, ?_, fun i d hd => ?_, ?_, f3⟩
  · rw [← hcols, hb1]
  · obtain ⟨d', d1, d2⟩ := i3 i d hd
    have hi : i < pre.length := (List.getElem?_eq_some_iff.1 hd).1
    exact ⟨d', d1, by rwa [← hcols, hb i hi.le, ← Nat.zero_add (before pre rows ants i)]⟩
  · rw [← hcols, hb _ le_rfl]
    exact f2

theorem Complete.ready {c c' : Col} {rows ants offset : Nat} (h : Complete c c' rows ants offset) (hb : c.bits ≠ 0) : Ready c' := by
  obtain ⟨-, -, h3, h4, -, -, -, -, h9⟩ := h
  exact ⟨by rwa [h3], h9, fun _ => h4⟩

theorem before_eq {cols cols' : List Col} (h : cols'.map Col.size = cols.map Col.size) (rows ants i : Nat) :
    before cols' rows ants i = before cols rows ants i := by
  have e : ∀ l : List Col, before l rows ants i = (((l.map Col.size).map fun f => f rows ants).take i).sum := by
    intro l
    simp [before, List.map_take, Function.comp_def]
  rw [e, e, h]

/-- **C150**, repair: calling `initializeRowsPerBlock` once more with the same values, as `prepare` does (dyscostman.cc:374-375), makes
up for a failure if the threads can be created this time: the threads that were started are joined first, and every column gets what
it would have got at once. Only the header is not written by `prepare`. -/
theorem init_again {m m' : Manager} {rows ants : Nat} (hm : m.Allows rows ants) (hr : ∀ c ∈ m.cols, Ready c) {write write' : Bool}
    {ok ok' : Nat → Nat → Bool} {pre post : List Col} {c : Col} (hcols : m.cols = pre ++ c :: post)
    (ho : ∀ i d, pre[i]? = some d → ∀ j, j < d.count → ok i j = true)
    {a : Nat} (ha : a < c.count) (ho1 : ∀ j, j < a → ok pre.length j = true) (hf : ok pre.length a = false)
    (h1 : m.initRows rows ants write ok = (m', false))
    (ho' : ∀ i c, m.cols[i]? = some c → ∀ j, j < c.count → ok' i j = true) :
    ∃ m'', m'.initRows rows ants write' ok' = (m'', true) ∧ m''.rowsPerBlock = rows ∧ m''.antennas = ants ∧
      m''.blockSize = before m.cols rows ants m.cols.length ∧ m''.header = m.header + (if write' then 1 else 0) ∧
      m''.cols.length = m.cols.length ∧
      ∀ i c, m.cols[i]? = some c → ∃ c', m''.cols[i]? = some c' ∧ Complete c c' rows ants (before m.cols rows ants i) := by
  obtain ⟨x, pre', c', f1, f2, f3, -, f5, f6, f7, -, f9, f10, f11⟩ := init_fails hm hr write hcols ho ha ho1 hf
  obtain rfl : m' = x := (Prod.mk.inj (h1.symm.trans f1)).1
  -- what the columns have in common with those before
  have hlen : m'.cols.length = m.cols.length := by rw [f6, hcols, List.length_append, List.length_append, f7]; rfl
  have hsame : ∀ (i : Nat) (d d' : Col), m.cols[i]? = some d → m'.cols[i]? = some d' →
      d'.size = d.size ∧ d'.count = d.count ∧ d'.bits = d.bits ∧ Ready d' := by
    intro i d d' hd hd'
    have hrd : Ready d := hr d (List.mem_of_getElem? hd)
    rw [hcols] at hd
    rw [f6] at hd'
    rcases Nat.lt_trichotomy i pre.length with hi | hi | hi
    · rw [List.getElem?_append_left hi] at hd
      rw [List.getElem?_append_left (by omega)] at hd'
      obtain ⟨d'', e1, e2⟩ := f9 i d hd
      obtain rfl : d'' = d' := Option.some.inj (e1.symm.trans hd')
      exact ⟨e2.1, e2.2.1, e2.2.2.1, e2.ready hrd.1⟩
    · subst hi
      rw [List.getElem?_append_right (Nat.le_refl _), Nat.sub_self] at hd
      rw [← f7, List.getElem?_append_right (Nat.le_refl _), Nat.sub_self] at hd'
      obtain rfl : c = d := by simpa using hd
      obtain rfl : c' = d' := by simpa using hd'
      have hready : Ready { c' with count := a } := f10.ready hrd.1
      exact ⟨f10.1, f11, f10.2.2.1, hready⟩
    · rw [List.getElem?_append_right hi.le] at hd
      rw [List.getElem?_append_right (by omega), f7] at hd'
      obtain ⟨n, hn⟩ : ∃ n, i - pre.length = n + 1 := ⟨i - pre.length - 1, by omega⟩
      rw [hn, List.getElem?_cons_succ] at hd hd'
      obtain rfl : d = d' := Option.some.inj (hd.symm.trans hd')
      exact ⟨rfl, rfl, rfl, hrd⟩
  have hget : ∀ (i : Nat) (d' : Col), m'.cols[i]? = some d' → ∃ d, m.cols[i]? = some d := by
    intro i d' hd'
    have hi := (List.getElem?_eq_some_iff.1 hd').1
    exact ⟨_, List.getElem?_eq_getElem (hlen ▸ hi)⟩
  have hsize : m'.cols.map Col.size = m.cols.map Col.size := by
    refine List.ext_getElem? fun i => ?_
    rw [List.getElem?_map, List.getElem?_map]
    cases hd' : m'.cols[i]? with
    | none => rw [List.getElem?_eq_none (by rw [← hlen]; exact List.getElem?_eq_none_iff.1 hd')]
    | some d' =>
      obtain ⟨d, hd⟩ := hget i d' hd'
      rw [hd, Option.map_some, Option.map_some, (hsame i d d' hd hd').1]
  have hm' : m'.Allows rows ants := Or.inr ⟨f2, f3⟩
  have hr' : ∀ d ∈ m'.cols, Ready d := by
    intro d' hmem
    obtain ⟨i, hd'⟩ := List.getElem?_of_mem hmem
    obtain ⟨d, hd⟩ := hget i d' hd'
    exact (hsame i d d' hd hd').2.2.2
  obtain ⟨m'', g1, g2, g3, g4, g5, g6, g7⟩ := init_complete hm' hr' write' (ok := ok') (fun i d' hd' j hj => by
    obtain ⟨d, hd⟩ := hget i d' hd'
    exact ho' i d hd j ((hsame i d d' hd hd').2.1 ▸ hj))
  refine ⟨m'', g1, g2, g3, ?_, by rw [g5, f5], by rw [g6, hlen], fun i d hd => ?_⟩
  · rw [g4, before_eq hsize, hlen]
  · have hi := (List.getElem?_eq_some_iff.1 hd).1
    obtain ⟨d', hd'⟩ : ∃ d', m'.cols[i]? = some d' := ⟨_, List.getElem?_eq_getElem (hlen.symm ▸ hi)⟩
    obtain ⟨s1, s2, s3, -⟩ := hsame i d d' hd hd'
    obtain ⟨d'', e1, e2⟩ := g7 i d' hd'
    obtain ⟨q1, q2, q3, q4, q5, q6, q7, q8, q9⟩ := e2
    exact ⟨d'', e1, q1.trans s1, q2.trans s2, q3.trans s3, q4, by rw [q5, s1], q6, by rw [q7, before_eq hsize], by rw [q8, s2], q9⟩

/-- Closing or preparing a column without threads raises an exception if, and only if, a block was stored in it. -/
theorem stop_raises {c : Col} {k : Nat} (h : Good c.group k) : c.stop.2 = false ↔ c.group.empty = true ∧ c.cached ≠ 0 := by
  unfold Col.stop
  by_cases he : c.group.empty = true
  · simp [he]
  · rw [if_neg he, joinAll_good h]
    simp [he]

/-- Three columns of 2 threads, where the second thread of the second column cannot be created: the first column has two threads, the
second one, and the third none and no block size. A second attempt succeeds. -/
example :
    let c : Col := ⟨fun rows ants => rows + ants, 2, 8, 0, 0, 0, 0, {}⟩
    let r := (⟨0, 0, 0, [c, c, c], 0⟩ : Manager).initRows 3 2 true fun i j => !(i == 1 && j == 1)
    let r' := r.1.initRows 3 2 false fun _ _ => true
    r.2 = false ∧ r.1.initialized = true ∧ r.1.header = 0 ∧ r.1.cols.map (fun c => (c.offset, c.blockSize, c.group.handles)) =
      [(0, 5, [some 0, some 1]), (5, 5, [some 0]), (0, 0, [])] ∧
    r'.2 = true ∧ r'.1.cols.map (fun c => (c.offset, c.blockSize, c.group.handles, c.group.joined)) =
      [(0, 5, [some 2, some 3], [0, 1]), (5, 5, [some 1, some 2], [0]), (10, 5, [some 0, some 1], [])] := by decide

/-- A new column meets the conditions of `init_complete`, `init_fails` and `init_again`. -/
theorem ready_new (size : Nat → Nat → Nat) (count : Nat) {bits : Nat} (hb : bits ≠ 0) : Ready { size := size, count := count, bits := bits } :=
  ⟨hb, ⟨0, Nat.le_refl _, rfl, rfl⟩, fun _ => rfl⟩

/-- Two new columns with one thread each, of which the second cannot be created. -/
example : ∃ m' d c', (⟨0, 0, 0, [⟨fun rows _ => rows, 1, 8, 0, 0, 0, 0, {}⟩, ⟨fun rows _ => 2 * rows, 1, 12, 0, 0, 0, 0, {}⟩], 0⟩ : Manager).initRows
      3 2 true (fun i _ => i == 0) = (m', false) ∧ m'.cols = [d, c'] ∧ d.group.handles.length = 1 ∧ c'.group.handles.length = 0 ∧
    c'.offset = 3 := by
  obtain ⟨m', pre', c', f1, -, -, -, -, f6, f7, -, f9, f10, -⟩ := init_fails
    (m := ⟨0, 0, 0, [⟨fun rows _ => rows, 1, 8, 0, 0, 0, 0, {}⟩, ⟨fun rows _ => 2 * rows, 1, 12, 0, 0, 0, 0, {}⟩], 0⟩)
    (rows := 3) (ants := 2) (Or.inl rfl)
    (fun c hc => by
      rcases List.mem_cons.1 hc with rfl | hc
      · exact ready_new _ _ (by decide)
      · obtain rfl := List.mem_singleton.1 hc
        exact ready_new _ _ (by decide))
    true (ok := fun i _ => i == 0) (pre := [⟨fun rows _ => rows, 1, 8, 0, 0, 0, 0, {}⟩]) (post := [])
    (c := ⟨fun rows _ => 2 * rows, 1, 12, 0, 0, 0, 0, {}⟩) rfl
    (fun i d hd j _ => by
      have hi := (List.getElem?_eq_some_iff.1 hd).1
      have : i = 0 := by
        simp at hi
        exact hi
      simp [this])
    (a := 0) Nat.one_pos (fun j hj => absurd hj (Nat.not_lt_zero _)) rfl
  obtain ⟨d, rfl⟩ := List.length_eq_one_iff.1 f7
  obtain ⟨d', e1, e2⟩ := f9 0 _ rfl
  obtain rfl : d = d' := by simpa using e1
  exact ⟨m', d, c', f1, f6, e2.2.2.2.2.2.2.2.1, f10.2.2.2.2.2.2.2.1, f10.2.2.2.2.2.2.1⟩

end Dysco.Threads
