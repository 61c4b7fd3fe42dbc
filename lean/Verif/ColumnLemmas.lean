import Verif.ColumnModel
import Mathlib.Data.List.Nodup
import Mathlib.Data.Fintype.Basic
import Mathlib.Tactic.Common

/-! # Invariants of the write cache -/

namespace Dysco.Col
variable {V K : Type} {n : Nat}

/-! ## The cache as a map -/

theorem has_iff (c : Cache V) (b : Nat) : c.has b = true ↔ ∃ it, (b, it) ∈ c := by
  unfold Cache.has
  rw [List.any_eq_true]
  constructor
  · rintro ⟨⟨b', it⟩, h, e⟩
    have : b' = b := by simpa using e
    subst this
    exact ⟨it, h⟩
  · rintro ⟨it, h⟩
    exact ⟨(b, it), h, by simp⟩

theorem has_false (c : Cache V) (b : Nat) : c.has b = false ↔ ∀ it, (b, it) ∉ c := by
  rw [← Bool.not_eq_true, has_iff]
  push Not
  rfl

theorem insert_perm (c : Cache V) (b : Nat) (r : Rows V) : (c.insert b r).Perm ((b, ⟨r, false⟩) :: c) :=
  List.perm_orderedInsert _ _ _

theorem mem_insert (c : Cache V) (b : Nat) (r : Rows V) (x : Nat × Item V) :
    x ∈ c.insert b r ↔ x = (b, ⟨r, false⟩) ∨ x ∈ c := by
  rw [(insert_perm c b r).mem_iff, List.mem_cons]

theorem length_insert (c : Cache V) (b : Nat) (r : Rows V) : (c.insert b r).length = c.length + 1 := by
  rw [(insert_perm c b r).length_eq, List.length_cons]

theorem keys_insert {c : Cache V} (h : (c.map (·.1)).Nodup) (b : Nat) (r : Rows V) (hb : c.has b = false) :
    ((c.insert b r).map (·.1)).Nodup := by
  rw [((insert_perm c b r).map _).nodup_iff, List.map_cons, List.nodup_cons]
  refine ⟨?_, h⟩
  rw [List.mem_map]
  rintro ⟨⟨b', it⟩, hm, rfl⟩
  exact (has_false c b').mp hb it hm

theorem mem_take (c : Cache V) (b : Nat) (x : Nat × Item V) :
    x ∈ c.take b ↔ (x ∈ c ∧ x.1 ≠ b) ∨ (x.1 = b ∧ x.2.writing = true ∧ ∃ w, (b, ⟨x.2.rows, w⟩) ∈ c) := by
  unfold Cache.take
  rw [List.mem_map]
  constructor
  · rintro ⟨y, hy, rfl⟩
    by_cases h : y.1 = b
    · right
      rw [if_pos h]
      refine ⟨h, rfl, y.2.writing, ?_⟩
      rw [← h]
      exact hy
    · left
      rw [if_neg h]
      exact ⟨hy, h⟩
  · rintro (⟨h1, h2⟩ | ⟨h1, h2, w, h3⟩)
    · exact ⟨x, h1, if_neg h2⟩
    · refine ⟨(b, ⟨x.2.rows, w⟩), h3, ?_⟩
      rw [if_pos rfl]
      obtain ⟨b', it⟩ := x
      obtain ⟨r, w'⟩ := it
      simp only at h1 h2
      subst h1 h2
      rfl

theorem keys_take (c : Cache V) (b : Nat) : (c.take b).map (·.1) = c.map (·.1) := by
  unfold Cache.take
  rw [List.map_map]
  apply List.map_congr_left
  intro x _
  simp only [Function.comp]
  split <;> rfl

theorem length_take (c : Cache V) (b : Nat) : (c.take b).length = c.length := by
  unfold Cache.take
  rw [List.length_map]

theorem has_take (c : Cache V) (b b' : Nat) : (c.take b).has b' = c.has b' := by
  rw [Bool.eq_iff_iff, has_iff, has_iff]
  constructor
  · rintro ⟨it, h⟩
    rcases (mem_take c b _).mp h with ⟨h1, _⟩ | ⟨h1, _, w, h2⟩
    · exact ⟨it, h1⟩
    · simp only at h1
      subst h1
      exact ⟨_, h2⟩
  · rintro ⟨it, h⟩
    by_cases hb : b' = b
    · subst hb
      exact ⟨⟨it.rows, true⟩, (mem_take c b' _).mpr (Or.inr ⟨rfl, rfl, it.writing, h⟩)⟩
    · exact ⟨it, (mem_take c b _).mpr (Or.inl ⟨h, hb⟩)⟩

theorem mem_remove (c : Cache V) (b : Nat) (x : Nat × Item V) : x ∈ c.remove b ↔ x ∈ c ∧ x.1 ≠ b := by
  unfold Cache.remove
  rw [List.mem_filter]
  simp

theorem keys_remove {c : Cache V} (h : (c.map (·.1)).Nodup) (b : Nat) : ((c.remove b).map (·.1)).Nodup :=
  h.sublist (List.filter_sublist.map _)

theorem length_remove (c : Cache V) (b : Nat) : (c.remove b).length ≤ c.length := List.length_filter_le _ _

theorem keys_unique {c : Cache V} (h : (c.map (·.1)).Nodup) {b : Nat} {x y : Item V} (hx : (b, x) ∈ c)
    (hy : (b, y) ∈ c) : x = y := by
  have := List.inj_on_of_nodup_map h hx hy rfl
  injection this

theorem available_some {c : Cache V} {b : Nat} {it : Item V} (h : c.available = some (b, it)) :
    (b, it) ∈ c ∧ it.writing = false := by
  unfold Cache.available at h
  refine ⟨List.mem_of_find?_eq_some h, ?_⟩
  have := List.find?_some h
  simpa using this

theorem available_none {c : Cache V} (h : c.available = none) : ∀ x ∈ c, x.2.writing = true := by
  unfold Cache.available at h
  rw [List.find?_eq_none] at h
  intro x hx
  simpa using h x hx

/-! ## The invariant of the shared state -/

/-- The thread works on block `b`. -/
def ThreadPC.on (pc : ThreadPC V) (b : Nat) : Prop := (∃ r, pc = .encode b r) ∨ pc = .written b

/-- The part of a log that belongs to block `b`. -/
def ofBlock (l : List (Nat × Rows V)) (b : Nat) : List (Rows V) :=
  (l.filter fun x => x.1 == b).map (·.2)

theorem ofBlock_append (l : List (Nat × Rows V)) (b b' : Nat) (r : Rows V) :
    ofBlock (l ++ [(b', r)]) b = if b' = b then ofBlock l b ++ [r] else ofBlock l b := by
  unfold ofBlock
  rw [List.filter_append, List.map_append]
  by_cases h : b' = b
  · subst h; simp
  · rw [if_neg h]
    have : (b' == b) = false := by simpa using h
    simp [this]

/-- Invariant of cache, threads and file. Not in the code. -/
structure Core (p : Params V K) (file0 : Nat → Option (Rows V)) (s : State V K n) : Prop where
  keys : (s.cache.map (·.1)).Nodup
  size : s.cache.length ≤ p.maxCache
  encoding : ∀ i b r, s.threads i = .encode b r → (b, ⟨r, true⟩) ∈ s.cache
  writing : ∀ i b, s.threads i = .written b → ∃ r, (b, ⟨r, true⟩) ∈ s.cache
  owner : ∀ b it, (b, it) ∈ s.cache → it.writing = true → ∃ i, (s.threads i).on b
  one : ∀ i j b, (s.threads i).on b → (s.threads j).on b → i = j
  /-- a block in the cache that is not yet written is the last one stored -/
  pending : ∀ b it, (b, it) ∈ s.cache → (∀ i, s.threads i ≠ .written b) →
    ofBlock s.stores b = ofBlock s.writes b ++ [it.rows]
  settled : ∀ b, (s.cache.has b = false ∨ ∃ i, s.threads i = .written b) →
    ofBlock s.stores b = ofBlock s.writes b
  file : ∀ b, s.file b = ((ofBlock s.writes b).getLast?).or (file0 b)
  ended : ∀ i, s.threads i = .done → s.stop = true ∨ s.started = false
  idle : s.started = false → ∀ i, s.threads i = .done
  stopped : s.stop = true → s.cache = []
  /-- no lost wake-up of an item -/
  awake : (∃ x ∈ s.cache, x.2.writing = false) → ∀ i, s.threads i ≠ .wait
  /-- no lost wake-up of the stop -/
  awakeStop : s.stop = true → ∀ i, s.threads i ≠ .wait

/-- The states between two steps of a call. -/
def Calm (s : State V K n) : Prop :=
  s.stop = false ∧ s.locked = false ∧ (s.started = false → s.cache = [] ∧ s.rowsPerBlock = 0)

/-- The part of the invariant that depends on where the client is. -/
def ClientOK (p : Params V K) (s : State V K n) : Prop :=
  match s.client with
  | .idle | .prepStart | .store .stop => Calm s
  | .load _ | .getLock _ | .store (.load _) => Calm s ∧ s.rowsPerBlock ≠ 0
  | .storeWait .stop => Calm s ∧ (p.maxCache ≤ s.cache.length ∨ s.cache.has s.current = true)
  | .storeWait (.load _) => Calm s ∧ s.rowsPerBlock ≠ 0 ∧
    (p.maxCache ≤ s.cache.length ∨ s.cache.has s.current = true)
  | .getWait row => Calm s ∧ s.rowsPerBlock ≠ 0 ∧ s.cache.has (row / s.rowsPerBlock) = true
  | .stopLock => s.stop = false ∧ s.locked = false
  | .stopWait => s.stop = false ∧ s.locked = false ∧ s.started = true ∧ s.cache ≠ []
  | .join => s.stop = true ∧ s.locked = false ∧ s.started = true
  | .closed => s.locked = false ∧ s.started = false ∧ s.cache = []
  | .failed => s.stop = false ∧ s.locked = false ∧ s.started = false
  | .unsupported => s.stop = false ∧ s.locked = false
  | .prepLock => s.stop = false ∧ s.locked = true ∧ (s.started = false → s.cache = [])
  | .prepWait => s.stop = false ∧ s.locked = true ∧ s.started = true ∧ s.cache ≠ []
  | .prepJoin => s.locked = true ∧ s.cache = [] ∧ (s.started = true → s.stop = true) ∧
    (s.started = false → s.stop = false)

/-- The shared state is the same. -/
structure Same (s s' : State V K n) : Prop where
  cache : s'.cache = s.cache
  threads : s'.threads = s.threads
  stores : s'.stores = s.stores
  writes : s'.writes = s.writes
  file : s'.file = s.file
  stop : s'.stop = s.stop
  started : s'.started = s.started

theorem Core.same {p : Params V K} {f : Nat → Option (Rows V)} {s s' : State V K n} (h : Core p f s)
    (e : Same s s') : Core p f s' := by
  obtain ⟨e1, e2, e3, e4, e5, e6, e7⟩ := e
  constructor
  · rw [e1]; exact h.keys
  · rw [e1]; exact h.size
  · rw [e1, e2]; exact h.encoding
  · rw [e1, e2]; exact h.writing
  · rw [e1, e2]; exact h.owner
  · rw [e2]; exact h.one
  · rw [e1, e2, e3, e4]; exact h.pending
  · rw [e1, e2, e3, e4]; exact h.settled
  · rw [e4, e5]; exact h.file
  · rw [e2, e6, e7]; exact h.ended
  · rw [e2, e7]; exact h.idle
  · rw [e1, e6]; exact h.stopped
  · rw [e1, e2]; exact h.awake
  · rw [e2, e6]; exact h.awakeStop

theorem wake_eq_encode {pc : ThreadPC V} {b : Nat} {r : Rows V} : pc.wake = .encode b r ↔ pc = .encode b r := by
  cases pc <;> simp [ThreadPC.wake]

theorem wake_eq_written {pc : ThreadPC V} {b : Nat} : pc.wake = .written b ↔ pc = .written b := by
  cases pc <;> simp [ThreadPC.wake]

theorem wake_eq_done {pc : ThreadPC V} : pc.wake = .done ↔ pc = .done := by
  cases pc <;> simp [ThreadPC.wake]

theorem wake_ne_wait {pc : ThreadPC V} : pc.wake ≠ .wait := by
  cases pc <;> simp [ThreadPC.wake]

theorem wake_on {pc : ThreadPC V} {b : Nat} : pc.wake.on b ↔ pc.on b := by
  unfold ThreadPC.on
  simp only [wake_eq_encode, wake_eq_written]

/-- Waking threads changes nothing else. -/
theorem Core.wake {p : Params V K} {f : Nat → Option (Rows V)} {s s' : State V K n} (h : Core p f s)
    (ht : ∀ i, s'.threads i = s.threads i ∨ s'.threads i = (s.threads i).wake)
    (e1 : s'.cache = s.cache) (e3 : s'.stores = s.stores) (e4 : s'.writes = s.writes)
    (e5 : s'.file = s.file) (e6 : s'.stop = s.stop) (e7 : s'.started = s.started) : Core p f s' := by
  have he : ∀ i b r, s'.threads i = .encode b r ↔ s.threads i = .encode b r := by
    intro i b r
    rcases ht i with h | h <;> rw [h]
    exact wake_eq_encode
  have hw : ∀ i b, s'.threads i = .written b ↔ s.threads i = .written b := by
    intro i b
    rcases ht i with h | h <;> rw [h]
    exact wake_eq_written
  have hd : ∀ i, s'.threads i = .done ↔ s.threads i = .done := by
    intro i
    rcases ht i with h | h <;> rw [h]
    exact wake_eq_done
  have ho : ∀ i b, (s'.threads i).on b ↔ (s.threads i).on b := by
    intro i b
    unfold ThreadPC.on
    simp only [he, hw]
  have hn : ∀ i, s.threads i ≠ .wait → s'.threads i ≠ .wait := by
    intro i hi
    rcases ht i with h | h <;> rw [h]
    · exact hi
    · exact wake_ne_wait
  constructor
  · rw [e1]; exact h.keys
  · rw [e1]; exact h.size
  · rw [e1]; intro i b r hi; exact h.encoding i b r ((he i b r).mp hi)
  · rw [e1]; intro i b hi; exact h.writing i b ((hw i b).mp hi)
  · rw [e1]
    intro b it hb hit
    obtain ⟨i, hi⟩ := h.owner b it hb hit
    exact ⟨i, (ho i b).mpr hi⟩
  · intro i j b hi hj
    exact h.one i j b ((ho i b).mp hi) ((ho j b).mp hj)
  · rw [e1, e3, e4]
    intro b it hb hi
    exact h.pending b it hb (fun i hc => hi i ((hw i b).mpr hc))
  · rw [e1, e3, e4]
    intro b hb
    apply h.settled b
    rcases hb with hb | ⟨i, hi⟩
    · exact Or.inl hb
    · exact Or.inr ⟨i, (hw i b).mp hi⟩
  · rw [e4, e5]; exact h.file
  · rw [e6, e7]; intro i hi; exact h.ended i ((hd i).mp hi)
  · rw [e7]; intro hs i; exact (hd i).mpr (h.idle hs i)
  · rw [e1, e6]; exact h.stopped
  · rw [e1]; intro hx i; exact hn i (h.awake hx i)
  · rw [e6]; intro hx i; exact hn i (h.awakeStop hx i)

/-! ## Steps of the encoder threads -/

variable {p : Params V K} {f : Nat → Option (Rows V)} {s : State V K n}

theorem core_take (h : Core p f s) {i : Fin n} {b : Nat} {it : Item V} (ha : s.cache.available = some (b, it))
    (hi : s.threads i = .head ∨ s.threads i = .woken) :
    Core p f { s with cache := s.cache.take b, threads := Function.update s.threads i (.encode b it.rows) } := by
  obtain ⟨hm, hw⟩ := available_some ha
  have hoff : ∀ b', ¬ (s.threads i).on b' := by
    intro b' hb
    unfold ThreadPC.on at hb
    rcases hi with hi | hi <;> rw [hi] at hb <;> simp at hb
  have hfree : ∀ j, ¬ (s.threads j).on b := by
    intro j hj
    rcases hj with ⟨r, hj⟩ | hj
    · have := keys_unique h.keys hm (h.encoding j b r hj)
      rw [this] at hw
      simp at hw
    · obtain ⟨r, hr⟩ := h.writing j b hj
      have := keys_unique h.keys hm hr
      rw [this] at hw
      simp at hw
  have hup : ∀ j, j ≠ i → Function.update s.threads i (.encode b it.rows) j = s.threads j :=
    fun j hj => Function.update_of_ne hj _ _
  have hself : Function.update s.threads i (.encode b it.rows) i = .encode b it.rows :=
    Function.update_self _ _ _
  have hwr : ∀ j b', Function.update s.threads i (.encode b it.rows) j = .written b' ↔ s.threads j = .written b' := by
    intro j b'
    by_cases hj : j = i
    · subst hj
      rw [hself]
      constructor
      · intro hc; cases hc
      · intro hc; exact absurd (Or.inr hc) (hoff b')
    · rw [hup j hj]
  constructor
  · show ((s.cache.take b).map (·.1)).Nodup
    rw [keys_take]; exact h.keys
  · show (s.cache.take b).length ≤ _
    rw [length_take]; exact h.size
  · intro j b' r hj
    show (b', _) ∈ s.cache.take b
    rw [mem_take]
    simp only at hj
    by_cases hji : j = i
    · subst hji
      rw [hself] at hj
      injection hj with h1 h2
      subst h1 h2
      exact Or.inr ⟨rfl, rfl, it.writing, hm⟩
    · rw [hup j hji] at hj
      refine Or.inl ⟨h.encoding j b' r hj, ?_⟩
      rintro rfl
      exact hfree j (Or.inl ⟨r, hj⟩)
  · intro j b' hj
    obtain ⟨r, hr⟩ := h.writing j b' ((hwr j b').mp hj)
    refine ⟨r, (mem_take _ _ _).mpr (Or.inl ⟨hr, ?_⟩)⟩
    rintro rfl
    exact hfree j (Or.inr ((hwr j _).mp hj))
  · intro b' it' hb hit
    rcases (mem_take _ _ _).mp hb with ⟨h1, h2⟩ | ⟨h1, _⟩
    · obtain ⟨j, hj⟩ := h.owner b' it' h1 hit
      refine ⟨j, ?_⟩
      simp only
      rw [hup j (by rintro rfl; exact hoff b' hj)]
      exact hj
    · simp only at h1
      subst h1
      refine ⟨i, Or.inl ⟨it.rows, ?_⟩⟩
      exact hself
  · intro j k b' hj hk
    simp only at hj hk
    have key : ∀ j, (Function.update s.threads i (.encode b it.rows) j).on b' →
        (j = i ∧ b' = b) ∨ (j ≠ i ∧ (s.threads j).on b') := by
      intro j hj
      by_cases hji : j = i
      · subst hji
        left
        rw [hself] at hj
        unfold ThreadPC.on at hj
        refine ⟨rfl, ?_⟩
        rcases hj with ⟨r, hj⟩ | hj
        · injection hj with h1; exact h1.symm
        · cases hj
      · rw [hup j hji] at hj
        exact Or.inr ⟨hji, hj⟩
    rcases key j hj with ⟨a1, a2⟩ | ⟨_, a1⟩
    · rcases key k hk with ⟨b1, b2⟩ | ⟨_, b1⟩
      · rw [a1, b1]
      · subst a2
        exact absurd b1 (hfree k)
    · rcases key k hk with ⟨b1, b2⟩ | ⟨_, b1⟩
      · subst b2
        exact absurd a1 (hfree j)
      · exact h.one j k b' a1 b1
  · intro b' it' hb hi'
    show ofBlock s.stores b' = _
    have hi'' : ∀ j, s.threads j ≠ .written b' := fun j hc => hi' j ((hwr j b').mpr hc)
    rcases (mem_take _ _ _).mp hb with ⟨h1, h2⟩ | ⟨h1, _, w, h2⟩
    · exact h.pending b' it' h1 hi''
    · simp only at h1 h2
      subst h1
      exact h.pending _ ⟨it'.rows, w⟩ h2 hi''
  · intro b' hb
    apply h.settled b'
    rcases hb with hb | ⟨j, hj⟩
    · left
      rw [← has_take s.cache b]
      exact hb
    · exact Or.inr ⟨j, (hwr j b').mp hj⟩
  · exact h.file
  · intro j hj
    simp only at hj
    by_cases hji : j = i
    · subst hji
      rw [hself] at hj
      cases hj
    · rw [hup j hji] at hj
      exact h.ended j hj
  · intro hs j
    have := h.idle hs i
    rcases hi with hi | hi <;> rw [hi] at this <;> cases this
  · intro hs
    have := h.stopped hs
    rw [this] at hm
    cases hm
  · rintro ⟨x, hx, hxw⟩ j
    simp only
    by_cases hji : j = i
    · subst hji
      rw [hself]
      exact fun hc => by cases hc
    · rw [hup j hji]
      exact h.awake ⟨(b, it), hm, hw⟩ j
  · intro hs j
    have := h.stopped hs
    rw [this] at hm
    cases hm

/-- A thread goes to wait, or returns. -/
theorem core_rest (h : Core p f s) {i : Fin n} (hi : s.threads i = .head ∨ s.threads i = .woken)
    {pc : ThreadPC V} (hpc : (pc = .wait ∧ s.stop = false ∧ s.cache.available = none) ∨
      (pc = .done ∧ s.stop = true)) :
    Core p f { s with threads := Function.update s.threads i pc } := by
  have hoff : ∀ b', ¬ (s.threads i).on b' := by
    intro b' hb
    unfold ThreadPC.on at hb
    rcases hi with hi | hi <;> rw [hi] at hb <;> simp at hb
  have hup : ∀ j, j ≠ i → Function.update s.threads i pc j = s.threads j :=
    fun j hj => Function.update_of_ne hj _ _
  have hself : Function.update s.threads i pc i = pc := Function.update_self _ _ _
  have hon : ∀ b', ¬ pc.on b' := by
    intro b' hb
    unfold ThreadPC.on at hb
    rcases hpc with ⟨rfl, _⟩ | ⟨rfl, _⟩ <;> simp at hb
  have hallon : ∀ j b', (Function.update s.threads i pc j).on b' ↔ (s.threads j).on b' := by
    intro j b'
    by_cases hj : j = i
    · subst hj
      rw [hself]
      exact ⟨fun hc => absurd hc (hon b'), fun hc => absurd hc (hoff b')⟩
    · rw [hup j hj]
  have hwr : ∀ j b', Function.update s.threads i pc j = .written b' ↔ s.threads j = .written b' := by
    intro j b'
    by_cases hj : j = i
    · subst hj
      rw [hself]
      exact ⟨fun hc => absurd (Or.inr hc) (hon b'), fun hc => absurd (Or.inr hc) (hoff b')⟩
    · rw [hup j hj]
  have hen : ∀ j b' r, Function.update s.threads i pc j = .encode b' r ↔ s.threads j = .encode b' r := by
    intro j b' r
    by_cases hj : j = i
    · subst hj
      rw [hself]
      exact ⟨fun hc => absurd (Or.inl ⟨r, hc⟩) (hon b'), fun hc => absurd (Or.inl ⟨r, hc⟩) (hoff b')⟩
    · rw [hup j hj]
  constructor
  · exact h.keys
  · exact h.size
  · intro j b r hj; exact h.encoding j b r ((hen j b r).mp hj)
  · intro j b hj; exact h.writing j b ((hwr j b).mp hj)
  · intro b it hb hit
    obtain ⟨j, hj⟩ := h.owner b it hb hit
    exact ⟨j, (hallon j b).mpr hj⟩
  · intro j k b hj hk
    exact h.one j k b ((hallon j b).mp hj) ((hallon k b).mp hk)
  · intro b it hb hj
    exact h.pending b it hb (fun j hc => hj j ((hwr j b).mpr hc))
  · intro b hb
    apply h.settled b
    rcases hb with hb | ⟨j, hj⟩
    · exact Or.inl hb
    · exact Or.inr ⟨j, (hwr j b).mp hj⟩
  · exact h.file
  · intro j hj
    simp only at hj
    by_cases hji : j = i
    · subst hji
      rw [hself] at hj
      rcases hpc with ⟨rfl, _⟩ | ⟨_, hs⟩
      · cases hj
      · exact Or.inl hs
    · rw [hup j hji] at hj
      exact h.ended j hj
  · intro hs j
    have := h.idle hs i
    rcases hi with hi | hi <;> rw [hi] at this <;> cases this
  · exact h.stopped
  · rintro ⟨x, hx, hxw⟩ j
    simp only
    by_cases hji : j = i
    · subst hji
      rw [hself]
      rcases hpc with ⟨_, _, hn⟩ | ⟨rfl, _⟩
      · have := available_none hn x hx
        rw [hxw] at this
        cases this
      · exact fun hc => by cases hc
    · rw [hup j hji]
      exact h.awake ⟨x, hx, hxw⟩ j
  · intro hs j
    simp only
    by_cases hji : j = i
    · subst hji
      rw [hself]
      rcases hpc with ⟨_, hs', _⟩ | ⟨rfl, _⟩
      · have hs2 : s.stop = true := hs
        rw [hs'] at hs2
        cases hs2
      · exact fun hc => by cases hc
    · rw [hup j hji]
      exact h.awakeStop hs j

/-- A thread writes its block. -/
theorem core_write (h : Core p f s) {i : Fin n} {b : Nat} {r : Rows V} (hi : s.threads i = .encode b r) (m : Nat) :
    Core p f { s with
      threads := Function.update s.threads i (.written b)
      file := fun b' => if b' = b then some r else s.file b'
      nBlocks := m
      writes := s.writes ++ [(b, r)] } := by
  have hm := h.encoding i b r hi
  have hup : ∀ j, j ≠ i → Function.update s.threads i (.written b) j = s.threads j :=
    fun j hj => Function.update_of_ne hj _ _
  have hself : Function.update s.threads i (.written b) i = .written b := Function.update_self _ _ _
  have hon : (s.threads i).on b := Or.inl ⟨r, hi⟩
  have hno : ∀ j, s.threads j ≠ .written b := by
    intro j hj
    have := h.one i j b hon (Or.inr hj)
    subst this
    rw [hi] at hj
    cases hj
  have hallon : ∀ j b', (Function.update s.threads i (.written b) j).on b' ↔ (s.threads j).on b' := by
    intro j b'
    by_cases hj : j = i
    · subst hj
      rw [hself, hi]
      unfold ThreadPC.on
      constructor
      · rintro (⟨r', hc⟩ | hc)
        · cases hc
        · injection hc with hc; subst hc; exact Or.inl ⟨r, rfl⟩
      · rintro (⟨r', hc⟩ | hc)
        · injection hc with hc; subst hc; exact Or.inr rfl
        · cases hc
    · rw [hup j hj]
  constructor
  · exact h.keys
  · exact h.size
  · intro j b' r' hj
    simp only at hj
    by_cases hji : j = i
    · subst hji; rw [hself] at hj; cases hj
    · rw [hup j hji] at hj; exact h.encoding j b' r' hj
  · intro j b' hj
    simp only at hj
    by_cases hji : j = i
    · subst hji
      rw [hself] at hj
      injection hj with hj
      subst hj
      exact ⟨r, hm⟩
    · rw [hup j hji] at hj; exact h.writing j b' hj
  · intro b' it hb hit
    obtain ⟨j, hj⟩ := h.owner b' it hb hit
    exact ⟨j, (hallon j b').mpr hj⟩
  · intro j k b' hj hk
    exact h.one j k b' ((hallon j b').mp hj) ((hallon k b').mp hk)
  · intro b' it hb hj
    have hne : b ≠ b' := by
      rintro rfl
      exact hj i hself
    simp only
    rw [ofBlock_append, if_neg hne]
    apply h.pending b' it hb
    intro j hc
    apply hj j
    simp only
    rw [hup j (by rintro rfl; rw [hi] at hc; cases hc)]
    exact hc
  · intro b' hb
    simp only
    rw [ofBlock_append]
    by_cases hbb : b = b'
    · subst hbb
      rw [if_pos rfl]
      exact h.pending b _ hm hno
    · rw [if_neg hbb]
      apply h.settled b'
      rcases hb with hb | ⟨j, hj⟩
      · exact Or.inl hb
      · simp only at hj
        right
        refine ⟨j, ?_⟩
        by_cases hji : j = i
        · subst hji
          rw [hself] at hj
          injection hj with hj
          exact absurd hj hbb
        · rw [hup j hji] at hj
          exact hj
  · intro b'
    simp only
    rw [ofBlock_append]
    by_cases hbb : b' = b
    · subst hbb
      rw [if_pos rfl, if_pos rfl, List.getLast?_append]
      rfl
    · rw [if_neg hbb, if_neg (fun hc => hbb hc.symm)]
      exact h.file b'
  · intro j hj
    simp only at hj
    by_cases hji : j = i
    · subst hji; rw [hself] at hj; cases hj
    · rw [hup j hji] at hj; exact h.ended j hj
  · intro hs j
    have := h.idle hs i
    rw [hi] at this
    cases this
  · exact h.stopped
  · rintro hx j
    simp only
    by_cases hji : j = i
    · subst hji; rw [hself]; exact fun hc => by cases hc
    · rw [hup j hji]; exact h.awake hx j
  · intro hs j
    simp only
    by_cases hji : j = i
    · subst hji; rw [hself]; exact fun hc => by cases hc
    · rw [hup j hji]; exact h.awakeStop hs j

/-- A thread removes its block from the cache. -/
theorem core_erase (h : Core p f s) {i : Fin n} {b : Nat} (hi : s.threads i = .written b) :
    Core p f { s with cache := s.cache.remove b, threads := Function.update s.threads i .head } := by
  obtain ⟨r, hr⟩ := h.writing i b hi
  have hup : ∀ j, j ≠ i → Function.update s.threads i .head j = s.threads j :=
    fun j hj => Function.update_of_ne hj _ _
  have hself : Function.update s.threads i .head i = .head := Function.update_self _ _ _
  have hon : (s.threads i).on b := Or.inr hi
  have key : ∀ j b', (Function.update s.threads i .head j).on b' → j ≠ i ∧ (s.threads j).on b' ∧ b' ≠ b := by
    intro j b' hj
    by_cases hji : j = i
    · subst hji
      rw [hself] at hj
      unfold ThreadPC.on at hj
      simp at hj
    · rw [hup j hji] at hj
      refine ⟨hji, hj, ?_⟩
      rintro rfl
      exact hji (h.one j i b' hj hon)
  constructor
  · exact keys_remove h.keys b
  · exact le_trans (length_remove _ _) h.size
  · intro j b' r' hj
    obtain ⟨h1, _, h3⟩ := key j b' (Or.inl ⟨r', hj⟩)
    simp only at hj
    rw [hup j h1] at hj
    exact (mem_remove _ _ _).mpr ⟨h.encoding j b' r' hj, h3⟩
  · intro j b' hj
    obtain ⟨h1, _, h3⟩ := key j b' (Or.inr hj)
    simp only at hj
    rw [hup j h1] at hj
    obtain ⟨r', hr'⟩ := h.writing j b' hj
    exact ⟨r', (mem_remove _ _ _).mpr ⟨hr', h3⟩⟩
  · intro b' it hb hit
    obtain ⟨h1, h2⟩ := (mem_remove _ _ _).mp hb
    obtain ⟨j, hj⟩ := h.owner b' it h1 hit
    refine ⟨j, ?_⟩
    simp only
    rw [hup j]
    · exact hj
    · rintro rfl
      unfold ThreadPC.on at hj
      rw [hi] at hj
      rcases hj with ⟨_, hj⟩ | hj
      · cases hj
      · injection hj with hj; exact h2 hj.symm
  · intro j k b' hj hk
    exact h.one j k b' (key j b' hj).2.1 (key k b' hk).2.1
  · intro b' it hb hj
    obtain ⟨h1, h2⟩ := (mem_remove _ _ _).mp hb
    apply h.pending b' it h1
    intro j hc
    apply hj j
    simp only
    rw [hup j]
    · exact hc
    · rintro rfl
      rw [hi] at hc
      injection hc with hc
      exact h2 hc.symm
  · intro b' hb
    apply h.settled b'
    by_cases hbb : b' = b
    · subst hbb; exact Or.inr ⟨i, hi⟩
    · rcases hb with hb | ⟨j, hj⟩
      · left
        rw [has_false] at hb ⊢
        intro it hc
        exact hb it ((mem_remove _ _ _).mpr ⟨hc, hbb⟩)
      · obtain ⟨h1, _⟩ := key j b' (Or.inr hj)
        simp only at hj
        rw [hup j h1] at hj
        exact Or.inr ⟨j, hj⟩
  · exact h.file
  · intro j hj
    simp only at hj
    by_cases hji : j = i
    · subst hji; rw [hself] at hj; cases hj
    · rw [hup j hji] at hj; exact h.ended j hj
  · intro hs j
    have := h.idle hs i
    rw [hi] at this
    cases this
  · intro hs
    have := h.stopped hs
    rw [this] at hr
    cases hr
  · rintro ⟨x, hx, hxw⟩ j
    simp only
    by_cases hji : j = i
    · subst hji; rw [hself]; exact fun hc => by cases hc
    · rw [hup j hji]; exact h.awake ⟨x, ((mem_remove _ _ _).mp hx).1, hxw⟩ j
  · intro hs j
    simp only
    by_cases hji : j = i
    · subst hji; rw [hself]; exact fun hc => by cases hc
    · rw [hup j hji]; exact h.awakeStop hs j

/-! ## Steps of the client -/

/-- A block is inserted and the threads are woken. -/
theorem core_insert (h : Core p f s) {b : Nat} {r : Rows V} (hs : s.stop = false)
    (hl : s.cache.length < p.maxCache) (hb : s.cache.has b = false) {s' : State V K n}
    (e1 : s'.cache = s.cache.insert b r) (e2 : s'.threads = fun i => (s.threads i).wake)
    (e3 : s'.stores = s.stores ++ [(b, r)]) (e4 : s'.writes = s.writes) (e5 : s'.file = s.file)
    (e6 : s'.stop = s.stop) (e7 : s'.started = s.started) : Core p f s' := by
  have hfree : ∀ j, ¬ (s.threads j).on b := by
    intro j hj
    rcases hj with ⟨r', hj⟩ | hj
    · exact (has_false _ _).mp hb _ (h.encoding j b r' hj)
    · obtain ⟨r', hr'⟩ := h.writing j b hj
      exact (has_false _ _).mp hb _ hr'
  have e2' : ∀ i, s'.threads i = (s.threads i).wake := fun i => congrFun e2 i
  constructor
  · rw [e1]; exact keys_insert h.keys b r hb
  · rw [e1, length_insert]; exact hl
  · intro i b' r' hi
    rw [e2', wake_eq_encode] at hi
    rw [e1, mem_insert]
    exact Or.inr (h.encoding i b' r' hi)
  · intro i b' hi
    rw [e2', wake_eq_written] at hi
    obtain ⟨r', hr'⟩ := h.writing i b' hi
    exact ⟨r', by rw [e1, mem_insert]; exact Or.inr hr'⟩
  · intro b' it hm hw
    rw [e1, mem_insert] at hm
    rcases hm with hm | hm
    · injection hm with _ hm
      rw [hm] at hw
      cases hw
    · obtain ⟨j, hj⟩ := h.owner b' it hm hw
      exact ⟨j, by rw [e2', wake_on]; exact hj⟩
  · intro i j b' hi hj
    rw [e2', wake_on] at hi hj
    exact h.one i j b' hi hj
  · intro b' it hm hi
    have hi' : ∀ i, s.threads i ≠ .written b' := by
      intro i hc
      apply hi i
      rw [e2', wake_eq_written]
      exact hc
    rw [e1, mem_insert] at hm
    rw [e3, e4, ofBlock_append]
    rcases hm with hm | hm
    · injection hm with hm1 hm2
      subst hm1
      rw [if_pos rfl, hm2]
      rw [h.settled b' (Or.inl hb)]
    · rw [if_neg]
      · exact h.pending b' it hm hi'
      · rintro rfl
        exact (has_false _ _).mp hb _ hm
  · intro b' hb'
    have hne : b ≠ b' := by
      rintro rfl
      rcases hb' with hb' | ⟨i, hi⟩
      · rw [e1, has_false] at hb'
        exact hb' _ ((mem_insert _ _ _ _).mpr (Or.inl rfl))
      · rw [e2', wake_eq_written] at hi
        exact hfree i (Or.inr hi)
    rw [e3, e4, ofBlock_append, if_neg hne]
    apply h.settled
    rcases hb' with hb' | ⟨i, hi⟩
    · left
      rw [has_false] at hb' ⊢
      intro it hc
      apply hb' it
      rw [e1, mem_insert]
      exact Or.inr hc
    · rw [e2', wake_eq_written] at hi
      exact Or.inr ⟨i, hi⟩
  · rw [e4, e5]; exact h.file
  · rw [e6, e7]
    intro i hi
    rw [e2', wake_eq_done] at hi
    exact h.ended i hi
  · rw [e7]
    intro hx i
    rw [e2', wake_eq_done]
    exact h.idle hx i
  · rw [e6, hs]
    intro hc
    cases hc
  · intro _ i
    rw [e2']
    exact wake_ne_wait
  · intro _ i
    rw [e2']
    exact wake_ne_wait

/-- The threads are started. -/
theorem core_start (h : Core p f s) (hc : s.cache = []) {s' : State V K n}
    (e1 : s'.cache = s.cache) (e2 : s'.threads = fun _ => .head)
    (e3 : s'.stores = s.stores) (e4 : s'.writes = s.writes) (e5 : s'.file = s.file)
    (e6 : s'.stop = false) (e7 : s'.started = decide (0 < n)) : Core p f s' := by
  have e2' : ∀ i, s'.threads i = .head := fun i => congrFun e2 i
  constructor
  · rw [e1]; exact h.keys
  · rw [e1]; exact h.size
  · intro i b r hi; rw [e2'] at hi; cases hi
  · intro i b hi; rw [e2'] at hi; cases hi
  · intro b it hm; rw [e1, hc] at hm; cases hm
  · intro i j b hi; rw [e2'] at hi; unfold ThreadPC.on at hi; simp at hi
  · intro b it hm; rw [e1, hc] at hm; cases hm
  · intro b hb
    rw [e3, e4]
    apply h.settled
    left
    rw [hc]
    rfl
  · rw [e4, e5]; exact h.file
  · intro i hi; rw [e2'] at hi; cases hi
  · rw [e7]
    intro hn i
    have := i.pos
    simp at hn
    omega
  · rw [e6]; intro hx; cases hx
  · rintro ⟨x, hx, _⟩; rw [e1, hc] at hx; cases hx
  · rw [e6]; intro hx; cases hx

/-- The stop flag is set and the threads are woken. -/
theorem core_stop (h : Core p f s) (hc : s.cache = []) {s' : State V K n}
    (e1 : s'.cache = s.cache) (e2 : s'.threads = fun i => (s.threads i).wake)
    (e3 : s'.stores = s.stores) (e4 : s'.writes = s.writes) (e5 : s'.file = s.file)
    (e6 : s'.stop = true) (e7 : s'.started = s.started) : Core p f s' := by
  have e2' : ∀ i, s'.threads i = (s.threads i).wake := fun i => congrFun e2 i
  constructor
  · rw [e1]; exact h.keys
  · rw [e1]; exact h.size
  · intro i b r hi
    rw [e2', wake_eq_encode] at hi
    rw [e1]
    exact h.encoding i b r hi
  · intro i b hi
    rw [e2', wake_eq_written] at hi
    rw [e1]
    exact h.writing i b hi
  · intro b it hm; rw [e1, hc] at hm; cases hm
  · intro i j b hi hj
    rw [e2', wake_on] at hi hj
    exact h.one i j b hi hj
  · intro b it hm; rw [e1, hc] at hm; cases hm
  · intro b hb
    rw [e3, e4]
    apply h.settled
    left
    rw [hc]
    rfl
  · rw [e4, e5]; exact h.file
  · intro i _; exact Or.inl e6
  · rw [e7]
    intro hx i
    rw [e2', wake_eq_done]
    exact h.idle hx i
  · intro _; rw [e1]; exact hc
  · rintro ⟨x, hx, _⟩; rw [e1, hc] at hx; cases hx
  · intro _ i
    rw [e2']
    exact wake_ne_wait

/-- All threads have ended. -/
theorem core_joined (h : Core p f s) (hd : ∀ i, s.threads i = .done) {s' : State V K n}
    (e1 : s'.cache = s.cache) (e2 : s'.threads = s.threads)
    (e3 : s'.stores = s.stores) (e4 : s'.writes = s.writes) (e5 : s'.file = s.file)
    (e6 : s'.stop = s.stop) (e7 : s'.started = false) : Core p f s' := by
  constructor
  · rw [e1]; exact h.keys
  · rw [e1]; exact h.size
  · rw [e1, e2]; exact h.encoding
  · rw [e1, e2]; exact h.writing
  · rw [e1, e2]; exact h.owner
  · rw [e2]; exact h.one
  · rw [e1, e2, e3, e4]; exact h.pending
  · rw [e1, e2, e3, e4]; exact h.settled
  · rw [e4, e5]; exact h.file
  · intro _ _; exact Or.inr e7
  · rw [e2]; intro _; exact hd
  · rw [e1, e6]; exact h.stopped
  · rw [e1, e2]; exact h.awake
  · rw [e2, e6]; exact h.awakeStop

/-! ## The whole invariant -/

/-- The invariant of a column. Not in the code. -/
structure Inv (p : Params V K) (file0 : Nat → Option (Rows V)) (s : State V K n) : Prop where
  core : Core p file0 s
  client : ClientOK p s
  /-- no threads before the rows per block are known -/
  offsets : s.rowsPerBlock = 0 → s.started = false

/-- Only the client and its own variables change. -/
theorem Inv.local (h : Inv p f s) {s' : State V K n} (e : Same s s') (er : s'.rowsPerBlock = s.rowsPerBlock)
    (hc : ClientOK p s') : Inv p f s' :=
  ⟨h.core.same e, hc, by rw [er, e.started]; exact h.offsets⟩

/-- Where the client is during an access to a block. -/
def Access : ClientPC V → Prop
  | .load _ | .store (.load _) | .idle => True
  | _ => False

theorem clientOK_access {s : State V K n} (hp : Access s.client) (hc : Calm s) (hr : s.rowsPerBlock ≠ 0) :
    ClientOK p s := by
  unfold ClientOK
  match h : s.client with
  | .load _ => exact ⟨hc, hr⟩
  | .store (.load _) => exact ⟨hc, hr⟩
  | .idle => exact hc
  | .store .stop => rw [h] at hp; exact hp.elim
  | .storeWait _ => rw [h] at hp; exact hp.elim
  | .getLock _ => rw [h] at hp; exact hp.elim
  | .getWait _ => rw [h] at hp; exact hp.elim
  | .stopLock => rw [h] at hp; exact hp.elim
  | .stopWait => rw [h] at hp; exact hp.elim
  | .join => rw [h] at hp; exact hp.elim
  | .closed => rw [h] at hp; exact hp.elim
  | .failed => rw [h] at hp; exact hp.elim
  | .unsupported => rw [h] at hp; exact hp.elim
  | .prepStart => rw [h] at hp; exact hp.elim
  | .prepLock => rw [h] at hp; exact hp.elim
  | .prepWait => rw [h] at hp; exact hp.elim
  | .prepJoin => rw [h] at hp; exact hp.elim

theorem finish_same (s : State V K n) (k : Next V) : Same s (s.finish k) ∧
    (s.finish k).rowsPerBlock = s.rowsPerBlock ∧ (s.finish k).locked = s.locked ∧
    (s.finish k).client = .idle := by
  cases k <;> exact ⟨⟨rfl, rfl, rfl, rfl, rfl, rfl, rfl⟩, rfl, rfl, rfl⟩

theorem access_same (s : State V K n) (k : Next V) : Same s (s.access k) ∧
    (s.access k).rowsPerBlock = s.rowsPerBlock ∧ (s.access k).locked = s.locked ∧
    Access (s.access k).client := by
  unfold State.access
  split
  · split
    · exact ⟨⟨rfl, rfl, rfl, rfl, rfl, rfl, rfl⟩, rfl, rfl, trivial⟩
    · exact ⟨⟨rfl, rfl, rfl, rfl, rfl, rfl, rfl⟩, rfl, rfl, trivial⟩
  · obtain ⟨h1, h2, h3, h4⟩ := finish_same s k
    exact ⟨h1, h2, h3, by rw [h4]; trivial⟩

theorem Calm.same {s s' : State V K n} (h : Calm s) (e : Same s s') (el : s'.locked = s.locked)
    (er : s'.rowsPerBlock = s.rowsPerBlock) : Calm s' := by
  unfold Calm at h ⊢
  rw [e.stop, el, e.started, e.cache, er]
  exact h

theorem access_inv (h : Inv p f s) (hcalm : Calm s) (hr : s.rowsPerBlock ≠ 0) (k : Next V) :
    Inv p f (s.access k) := by
  obtain ⟨a1, a2, a3, a4⟩ := access_same s k
  exact h.local a1 a2 (clientOK_access a4 (hcalm.same a1 a3 a2) (by rw [a2]; exact hr))

/-- Starting the threads. -/
theorem start_inv (h : Inv p f s) (hn : 0 < n) (hc : s.cache = []) (hl : s.locked = false) (rows : Nat)
    (hr : rows ≠ 0) (hid : s.client = .idle) :
    Inv p f ({ s with rowsPerBlock := rows } : State V K n).start ∧
      Calm ({ s with rowsPerBlock := rows } : State V K n).start := by
  have hcalm : Calm ({ s with rowsPerBlock := rows } : State V K n).start := by
    refine ⟨rfl, hl, fun hx => ?_⟩
    simp [State.start] at hx
    omega
  refine ⟨⟨core_start h.core hc rfl rfl rfl rfl rfl rfl rfl, ?_, fun hx => absurd hx hr⟩, hcalm⟩
  unfold ClientOK
  have : (({ s with rowsPerBlock := rows } : State V K n).start).client = .idle := hid
  rw [this]
  exact hcalm

theorem idle_inv (h : Inv p f s) (hcalm : Calm s) {s' : State V K n} (e : Same s s')
    (er : s'.rowsPerBlock = s.rowsPerBlock) (el : s'.locked = s.locked) (hid : s'.client = .idle) :
    Inv p f s' := by
  refine h.local e er ?_
  unfold ClientOK
  rw [hid]
  exact hcalm.same e el er

theorem call_inv (h : Inv p f s) (hn : 0 < n) (hcalm : Calm s) (hid : s.client = .idle) (op : Op V) :
    Inv p f (State.call p s op) := by
  cases op with
  | put row v =>
    simp only [State.call]
    unfold State.put
    split
    · rename_i hr
      exact access_inv h hcalm hr _
    · rename_i hr
      have hr : s.rowsPerBlock = 0 := by omega
      split
      · exact idle_inv h hcalm ⟨rfl, rfl, rfl, rfl, rfl, rfl, rfl⟩ rfl rfl hid
      · split
        · split
          · exact h.local ⟨rfl, rfl, rfl, rfl, rfl, rfl, rfl⟩ rfl ⟨hcalm.1, hcalm.2.1⟩
          · rename_i hrow
            split
            · rename_i hx
              exact absurd (hcalm.2.2 (h.offsets hr)).1 hx
            · rename_i hx
              obtain ⟨a1, a2⟩ := start_inv h hn (by simpa using hx) hcalm.2.1 row hrow hid
              exact access_inv a1 a2 hrow _
        · exact idle_inv h hcalm ⟨rfl, rfl, rfl, rfl, rfl, rfl, rfl⟩ rfl rfl hid
  | get row =>
    simp only [State.call]
    unfold State.get
    split
    · exact idle_inv h hcalm ⟨rfl, rfl, rfl, rfl, rfl, rfl, rfl⟩ rfl rfl hid
    · rename_i hr
      split
      · exact idle_inv h hcalm ⟨rfl, rfl, rfl, rfl, rfl, rfl, rfl⟩ rfl rfl hid
      · exact h.local ⟨rfl, rfl, rfl, rfl, rfl, rfl, rfl⟩ rfl ⟨hcalm, hr⟩
  | close =>
    simp only [State.call]
    split
    · exact h.local ⟨rfl, rfl, rfl, rfl, rfl, rfl, rfl⟩ rfl hcalm
    · exact h.local ⟨rfl, rfl, rfl, rfl, rfl, rfl, rfl⟩ rfl ⟨hcalm.1, hcalm.2.1⟩
  | addColumn =>
    simp only [State.call]
    split
    · exact h
    · exact h.local ⟨rfl, rfl, rfl, rfl, rfl, rfl, rfl⟩ rfl hcalm
  | otherInit rows =>
    simp only [State.call]
    split
    · exact h
    · rename_i hr
      have hr : s.rowsPerBlock = 0 := by omega
      split
      · exact h.local ⟨rfl, rfl, rfl, rfl, rfl, rfl, rfl⟩ rfl ⟨hcalm.1, hcalm.2.1⟩
      · rename_i hrows
        split
        · rename_i hx
          exact absurd (hcalm.2.2 (h.offsets hr)).1 hx
        · rename_i hx
          exact (start_inv h hn (by simpa using hx) hcalm.2.1 rows hrows hid).1

theorem isDone_iff {pc : ThreadPC V} : pc.isDone = true ↔ pc = .done := by
  cases pc <;> simp [ThreadPC.isDone]

theorem store_inv (h : Inv p f s) (hcalm : Calm s) {k : After V}
    (hk : ∀ k', k = .load k' → s.rowsPerBlock ≠ 0) : Inv p f (State.storeBlock p s k) := by
  unfold State.storeBlock
  split
  · exact h.local ⟨rfl, rfl, rfl, rfl, rfl, rfl, rfl⟩ rfl ⟨hcalm.1, hcalm.2.1⟩
  · split
    · rename_i hx
      refine h.local ⟨rfl, rfl, rfl, rfl, rfl, rfl, rfl⟩ rfl ?_
      cases k with
      | load k => exact ⟨hcalm, hk k rfl, hx⟩
      | stop => exact ⟨hcalm, hx⟩
    · rename_i hx
      push Not at hx
      refine ⟨core_insert h.core (b := s.current) (r := s.buffer) hcalm.1 hx.1 (by simpa using hx.2)
        rfl rfl rfl rfl rfl rfl rfl, ?_, h.offsets⟩
      cases k with
      | load k =>
        refine ⟨⟨hcalm.1, hcalm.2.1, fun hs => ?_⟩, hk k rfl⟩
        exact absurd (hcalm.2.2 hs).2 (hk k rfl)
      | stop => exact ⟨hcalm.1, hcalm.2.1⟩

theorem client_inv (h : Inv p f s) (hn : 0 < n) {junk : Nat → V} {s' : State V K n}
    (e : clientStep p s junk = some s') : Inv p f s' := by
  have hcl := h.client
  unfold ClientOK at hcl
  unfold clientStep at e
  match hpc : s.client with
  | .idle =>
    simp only [hpc] at hcl e
    cases htodo : s.todo with
    | nil => rw [htodo] at e; cases e
    | cons op rest =>
      rw [htodo] at e
      injection e with e
      subst e
      exact call_inv (idle_inv h hcl (s' := { s with client := .idle, todo := rest })
        ⟨rfl, rfl, rfl, rfl, rfl, rfl, rfl⟩ rfl rfl rfl) hn hcl rfl op
  | .store (.load k) =>
    simp only [hpc] at hcl e
    injection e with e
    subst e
    exact store_inv h hcl.1 (fun _ _ => hcl.2)
  | .store .stop =>
    simp only [hpc] at hcl e
    injection e with e
    subst e
    exact store_inv h hcl (fun k hk => by cases hk)
  | .getLock row =>
    simp only [hpc] at hcl e
    split at e
    · rename_i hx
      injection e with e
      subst e
      exact h.local ⟨rfl, rfl, rfl, rfl, rfl, rfl, rfl⟩ rfl ⟨hcl.1, hcl.2, hx⟩
    · injection e with e
      rw [← e]
      exact access_inv h hcl.1 hcl.2 _
  | .load k =>
    simp only [hpc] at hcl e
    injection e with e
    subst e
    obtain ⟨a1, a2, a3, a4⟩ := finish_same (State.loadBlock p s (k.row / s.rowsPerBlock) junk) k
    exact idle_inv h hcl.1 ⟨a1.cache, a1.threads, a1.stores, a1.writes, a1.file, a1.stop, a1.started⟩ a2 a3 a4
  | .stopLock =>
    simp only [hpc] at hcl e
    split at e
    · rename_i hst
      split at e
      · injection e with e
        subst e
        exact h.local ⟨rfl, rfl, rfl, rfl, rfl, rfl, rfl⟩ rfl ⟨hcl.1, hcl.2, hst⟩
      · rename_i hx
        injection e with e
        subst e
        exact h.local ⟨rfl, rfl, rfl, rfl, rfl, rfl, rfl⟩ rfl ⟨hcl.2, hst, by simpa using hx⟩
    · rename_i hst
      have hst : s.started = true := by simpa using hst
      split at e
      · rename_i hx
        injection e with e
        subst e
        exact h.local ⟨rfl, rfl, rfl, rfl, rfl, rfl, rfl⟩ rfl ⟨hcl.1, hcl.2, hst, hx⟩
      · rename_i hx
        injection e with e
        subst e
        exact ⟨core_stop h.core (by simpa using hx) rfl rfl rfl rfl rfl rfl rfl, ⟨rfl, hcl.2, hst⟩, h.offsets⟩
  | .join =>
    simp only [hpc] at hcl e
    split at e
    · rename_i hd
      injection e with e
      subst e
      exact ⟨core_joined h.core (fun i => isDone_iff.mp (hd i)) rfl rfl rfl rfl rfl rfl rfl,
        ⟨hcl.2.1, rfl, h.core.stopped hcl.1⟩, fun _ => rfl⟩
    · cases e
  | .prepStart =>
    simp only [hpc] at hcl e
    injection e with e
    subst e
    exact h.local ⟨rfl, rfl, rfl, rfl, rfl, rfl, rfl⟩ rfl ⟨hcl.1, rfl, fun hs => (hcl.2.2 hs).1⟩
  | .prepLock =>
    simp only [hpc] at hcl e
    split at e
    · rename_i hst
      split at e
      · rename_i hx
        exact absurd (hcl.2.2 hst) hx
      · injection e with e
        subst e
        refine h.local ⟨rfl, rfl, rfl, rfl, rfl, rfl, rfl⟩ rfl ⟨hcl.2.1, hcl.2.2 hst, fun hc => ?_, fun _ => hcl.1⟩
        have hc : s.started = true := hc
        rw [hst] at hc
        cases hc
    · rename_i hst
      have hst : s.started = true := by simpa using hst
      split at e
      · rename_i hx
        injection e with e
        subst e
        exact h.local ⟨rfl, rfl, rfl, rfl, rfl, rfl, rfl⟩ rfl ⟨hcl.1, hcl.2.1, hst, hx⟩
      · rename_i hx
        have hx : s.cache = [] := by simpa using hx
        injection e with e
        subst e
        refine ⟨core_stop h.core hx rfl rfl rfl rfl rfl rfl rfl, ⟨hcl.2.1, hx, fun _ => rfl, fun hc => ?_⟩, h.offsets⟩
        have hc : s.started = false := hc
        rw [hst] at hc
        cases hc
  | .prepJoin =>
    simp only [hpc] at hcl e
    split at e
    · rename_i hd
      injection e with e
      have hd' : ∀ i, s.threads i = .done := fun i => isDone_iff.mp (hd i)
      split at e
      · rename_i hr
        subst e
        refine ⟨core_start h.core hcl.2.1 rfl rfl rfl rfl rfl rfl rfl, ⟨rfl, rfl, fun hx => ?_⟩,
          fun hx => absurd hx hr⟩
        simp [State.start] at hx
        omega
      · rename_i hr
        have hr : s.rowsPerBlock = 0 := by omega
        subst e
        exact ⟨core_joined h.core hd' rfl rfl rfl rfl rfl rfl rfl,
          ⟨hcl.2.2.2 (h.offsets hr), rfl, fun _ => ⟨hcl.2.1, hr⟩⟩, fun _ => rfl⟩
    · cases e
  | .storeWait _ => rw [hpc] at e; cases e
  | .getWait _ => rw [hpc] at e; cases e
  | .stopWait => rw [hpc] at e; cases e
  | .prepWait => rw [hpc] at e; cases e
  | .closed => rw [hpc] at e; cases e
  | .failed => rw [hpc] at e; cases e
  | .unsupported => rw [hpc] at e; cases e

/-- What the client needs is kept when threads take and write blocks. -/
theorem clientOK_keep (h : ClientOK p s) {s' : State V K n} (e1 : s'.client = s.client)
    (e2 : s'.stop = s.stop) (e3 : s'.locked = s.locked) (e4 : s'.started = s.started)
    (e5 : s'.rowsPerBlock = s.rowsPerBlock) (e6 : s'.current = s.current)
    (e7 : s'.cache = [] ↔ s.cache = []) (e8 : s'.cache.length = s.cache.length)
    (e9 : ∀ b, s'.cache.has b = s.cache.has b) : ClientOK p s' := by
  unfold ClientOK Calm at h ⊢
  rw [e1, e2, e3, e4, e5, e6, e8]
  simp only [e9, e7, Ne]
  exact h

theorem wake_pc_cases (pc : ClientPC V) : pc.wake = pc ∨ ∃ k row, (pc = .storeWait k ∧ pc.wake = .store k) ∨
    (pc = .getWait row ∧ pc.wake = .getLock row) ∨ (pc = .stopWait ∧ pc.wake = .stopLock) ∨
    (pc = .prepWait ∧ pc.wake = .prepLock) := by
  cases pc with
  | storeWait k => exact Or.inr ⟨k, 0, Or.inl ⟨rfl, rfl⟩⟩
  | getWait row => exact Or.inr ⟨.stop, row, Or.inr (Or.inl ⟨rfl, rfl⟩)⟩
  | stopWait => exact Or.inr ⟨.stop, 0, Or.inr (Or.inr (Or.inl ⟨rfl, rfl⟩))⟩
  | prepWait => exact Or.inr ⟨.stop, 0, Or.inr (Or.inr (Or.inr ⟨rfl, rfl⟩))⟩
  | _ => exact Or.inl rfl

/-- Waking the client, while the cache may have become smaller. -/
theorem clientOK_wake (h : ClientOK p s) {s' : State V K n} (e1 : s'.client = s.client.wake)
    (e2 : s'.stop = s.stop) (e3 : s'.locked = s.locked) (e4 : s'.started = s.started)
    (e5 : s'.rowsPerBlock = s.rowsPerBlock)
    (e7 : s.cache = [] → s'.cache = []) : ClientOK p s' := by
  have hcalm : Calm s → Calm s' := by
    unfold Calm
    rw [e2, e3, e4, e5]
    exact fun hc => ⟨hc.1, hc.2.1, fun hs => ⟨e7 (hc.2.2 hs).1, (hc.2.2 hs).2⟩⟩
  unfold ClientOK at h ⊢
  rw [e1]
  match hpc : s.client with
  | .idle => simp only [hpc, ClientPC.wake] at h ⊢; exact hcalm h
  | .store (.load k) => simp only [hpc, ClientPC.wake] at h ⊢; rw [e5]; exact ⟨hcalm h.1, h.2⟩
  | .store .stop => simp only [hpc, ClientPC.wake] at h ⊢; exact hcalm h
  | .getLock row => simp only [hpc, ClientPC.wake] at h ⊢; rw [e5]; exact ⟨hcalm h.1, h.2⟩
  | .load k => simp only [hpc, ClientPC.wake] at h ⊢; rw [e5]; exact ⟨hcalm h.1, h.2⟩
  | .stopLock => simp only [hpc, ClientPC.wake] at h ⊢; rw [e2, e3]; exact h
  | .join => simp only [hpc, ClientPC.wake] at h ⊢; rw [e2, e3, e4]; exact h
  | .prepStart => simp only [hpc, ClientPC.wake] at h ⊢; exact hcalm h
  | .prepLock =>
    simp only [hpc, ClientPC.wake] at h ⊢
    rw [e2, e3, e4]
    exact ⟨h.1, h.2.1, fun hs => e7 (h.2.2 hs)⟩
  | .prepJoin =>
    simp only [hpc, ClientPC.wake] at h ⊢
    rw [e2, e3, e4]
    exact ⟨h.1, e7 h.2.1, h.2.2⟩
  | .storeWait (.load k) => simp only [hpc, ClientPC.wake] at h ⊢; rw [e5]; exact ⟨hcalm h.1, h.2.1⟩
  | .storeWait .stop => simp only [hpc, ClientPC.wake] at h ⊢; exact hcalm h.1
  | .getWait _ => simp only [hpc, ClientPC.wake] at h ⊢; rw [e5]; exact ⟨hcalm h.1, h.2.1⟩
  | .stopWait => simp only [hpc, ClientPC.wake] at h ⊢; rw [e2, e3]; exact ⟨h.1, h.2.1⟩
  | .prepWait =>
    simp only [hpc, ClientPC.wake] at h ⊢
    rw [e2, e3, e4]
    exact ⟨h.1, h.2.1, fun hs => e7 (by rw [h.2.2.1] at hs; cases hs)⟩
  | .closed =>
    simp only [hpc, ClientPC.wake] at h ⊢
    rw [e3, e4]
    exact ⟨h.1, h.2.1, e7 h.2.2⟩
  | .failed => simp only [hpc, ClientPC.wake] at h ⊢; rw [e2, e3, e4]; exact h
  | .unsupported => simp only [hpc, ClientPC.wake] at h ⊢; rw [e2, e3]; exact h

theorem take_nil (c : Cache V) (b : Nat) : c.take b = [] ↔ c = [] := by
  unfold Cache.take
  exact List.map_eq_nil_iff

theorem seek_inv (h : Inv p f s) {i : Fin n} (hi : s.threads i = .head ∧ s.stop = false ∨ s.threads i = .woken) :
    Inv p f (s.seek i) := by
  have hi' : s.threads i = .head ∨ s.threads i = .woken := hi.imp And.left id
  unfold State.seek
  cases ha : s.cache.available with
  | some x =>
    obtain ⟨b, it⟩ := x
    exact ⟨core_take h.core ha hi', clientOK_keep h.client rfl rfl rfl rfl rfl rfl (take_nil _ _)
      (length_take _ _) (has_take _ _), h.offsets⟩
  | none =>
    refine ⟨core_rest h.core hi' ?_, clientOK_keep h.client rfl rfl rfl rfl rfl rfl Iff.rfl rfl (fun _ => rfl),
      h.offsets⟩
    cases hs : s.stop with
    | true => exact Or.inr ⟨rfl, rfl⟩
    | false => exact Or.inl ⟨rfl, rfl, ha⟩

theorem thread_inv (h : Inv p f s) {i : Fin n} {s' : State V K n} (e : threadStep s i = some s') :
    Inv p f s' := by
  unfold threadStep at e
  cases hpc : s.threads i with
  | head =>
    simp only [hpc] at e
    split at e
    · rename_i hs
      injection e with e
      subst e
      exact ⟨core_rest h.core (Or.inl hpc) (Or.inr ⟨rfl, hs⟩),
        clientOK_keep h.client rfl rfl rfl rfl rfl rfl Iff.rfl rfl (fun _ => rfl), h.offsets⟩
    · rename_i hs
      injection e with e
      subst e
      exact seek_inv h (Or.inl ⟨hpc, by simpa using hs⟩)
  | woken =>
    simp only [hpc] at e
    injection e with e
    subst e
    exact seek_inv h (Or.inr hpc)
  | encode b r =>
    simp only [hpc] at e
    split at e
    · cases e
    · injection e with e
      subst e
      exact ⟨core_write h.core hpc _,
        clientOK_keep h.client rfl rfl rfl rfl rfl rfl Iff.rfl rfl (fun _ => rfl), h.offsets⟩
  | written b =>
    simp only [hpc] at e
    injection e with e
    subst e
    refine ⟨(core_erase h.core hpc).wake (fun i => Or.inr rfl) rfl rfl rfl rfl rfl rfl, ?_, h.offsets⟩
    exact clientOK_wake h.client rfl rfl rfl rfl rfl (fun hc => by
      show s.cache.remove b = []
      rw [hc]
      rfl)
  | wait => simp only [hpc] at e; cases e
  | done => simp only [hpc] at e; cases e

theorem step_inv {s s' : State V K p.threads} (h : Inv p f s) (hn : 0 < p.threads) {l : Label V p.threads}
    (e : step p s l = some s') : Inv p f s' := by
  cases l with
  | client junk => exact client_inv h hn e
  | thread i => exact thread_inv h e
  | spuriousThread i =>
    injection e with e
    subst e
    refine ⟨h.core.wake (fun j => ?_) rfl rfl rfl rfl rfl rfl,
      clientOK_keep h.client rfl rfl rfl rfl rfl rfl Iff.rfl rfl (fun _ => rfl), h.offsets⟩
    by_cases hj : j = i
    · subst hj
      exact Or.inr (Function.update_self _ _ _)
    · exact Or.inl (Function.update_of_ne hj _ _)
  | spuriousClient =>
    injection e with e
    subst e
    exact ⟨h.core.same ⟨rfl, rfl, rfl, rfl, rfl, rfl, rfl⟩, clientOK_wake h.client rfl rfl rfl rfl rfl id,
      h.offsets⟩
  | others m =>
    simp only [step] at e
    split at e
    · cases e
    · injection e with e
      subst e
      exact ⟨h.core.same ⟨rfl, rfl, rfl, rfl, rfl, rfl, rfl⟩,
        clientOK_keep h.client rfl rfl rfl rfl rfl rfl Iff.rfl rfl (fun _ => rfl), h.offsets⟩

/-- An invariant of all steps holds in all reachable states. -/
theorem run_induct {P : State V K p.threads → Prop}
    (hs : ∀ s l s', P s → step p s l = some s' → P s') {s s' : State V K p.threads} (h : P s)
    {ls : List (Label V p.threads)} (e : run p s ls = some s') : P s' := by
  induction ls generalizing s with
  | nil => injection e with e; subst e; exact h
  | cons l ls ih =>
    simp only [run] at e
    cases h1 : step p s l with
    | none => rw [h1] at e; cases e
    | some s1 =>
      rw [h1] at e
      exact ih (hs s l s1 h h1) e

theorem initial_inv (hn : 0 < p.threads) (k : K) (rows : Nat) (file : Nat → Option (Rows V)) (nBlocks : Nat)
    (todo : List (Op V)) : Inv p (if rows = 0 then fun _ => none else file) (initial p k rows file nBlocks todo) := by
  refine ⟨⟨List.nodup_nil, Nat.zero_le _, ?_, ?_, ?_, ?_, ?_, fun _ _ => rfl, fun _ => rfl, ?_, ?_, ?_, ?_, ?_⟩,
    ⟨rfl, rfl, ?_⟩, ?_⟩
  · intro i b r hi
    simp only [initial] at hi
    split at hi <;> cases hi
  · intro i b hi
    simp only [initial] at hi
    split at hi <;> cases hi
  · intro b it hm; cases hm
  · intro i j b hi
    unfold ThreadPC.on at hi
    simp only [initial] at hi
    split at hi <;> simp at hi
  · intro b it hm; cases hm
  · intro i hi
    simp only [initial] at hi ⊢
    split at hi
    · rename_i hr
      rw [if_pos hr]
      exact Or.inr rfl
    · cases hi
  · intro hs i
    simp only [initial] at hs ⊢
    split at hs
    · rename_i hr
      rw [if_pos hr]
    · simp at hs
      omega
  · intro hs; cases hs
  · rintro ⟨x, hx, _⟩; cases hx
  · intro hs; cases hs
  · intro hs
    simp only [initial] at hs ⊢
    split at hs
    · rename_i hr
      exact ⟨trivial, hr⟩
    · simp at hs
      omega
  · intro hr
    have hr : rows = 0 := hr
    simp only [initial]
    rw [if_pos hr]

theorem reachable_inv {s0 s : State V K p.threads} (hn : 0 < p.threads) (h0 : Inv p f s0)
    (h : Reachable p s0 s) : Inv p f s := by
  obtain ⟨ls, e⟩ := h
  exact run_induct (fun s l s' hs he => step_inv hs hn he) h0 e

end Dysco.Col
