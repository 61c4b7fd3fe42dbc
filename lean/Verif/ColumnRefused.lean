import Verif.ColumnWhole
import Verif.ColumnOrder
import Verif.BytePackerProps
import Verif.LayoutModel

/-!
# C122: exceptions in an encoder thread

`EncodingThreadFunctor::operator()` (threadeddyscocolumn.cc:297-336) catches nothing, so an exception of
`encodeAndWrite` ends the program with `std::terminate`. The numbers of bits that `BytePacker` does not support are
refused only there. `ColumnModel` leaves these exceptions out; here a step is added in which a thread that encodes a
block for which an exception is raised ends the program.
-/

namespace Dysco.Col
open Layout BytePacker
variable {V K : Type} {n : Nat} {p : Params V K}

/-- The program after some steps. Not in the code. -/
inductive Out (V K : Type) (n : Nat) where
  | running (s : State V K n)
  /-- `std::terminate`; the state at that moment -/
  | terminated (s : State V K n)

/-- Not in the code. -/
def Out.state : Out V K n → State V K n
  | .running s => s
  | .terminated s => s

/-- One step; `bad b rows` says that `encodeAndWrite` (272-294) raises an exception for this block. -/
def stepE (p : Params V K) (bad : Nat → Rows V → Bool) (s : State V K p.threads) (l : Label V p.threads) :
    Option (Out V K p.threads) :=
  match l with
  | .thread i =>
    match s.threads i with
    | .encode b rows => if bad b rows then some (.terminated s) else (step p s (.thread i)).map .running
    | _ => (step p s (.thread i)).map .running
  | l => (step p s l).map .running

/-- A run along a schedule; nothing happens after the program has ended. Schedules; not in the code. -/
def runE (p : Params V K) (bad : Nat → Rows V → Bool) :
    State V K p.threads → List (Label V p.threads) → Option (Out V K p.threads)
  | s, [] => some (.running s)
  | s, l :: ls =>
    match stepE p bad s l with
    | none => none
    | some (.terminated s') => if ls = [] then some (.terminated s') else none
    | some (.running s') => runE p bad s' ls

/-- The bytes of a block with a number of bits that is not supported: whatever the codec does, there are none. -/
theorem block_refused (enc : Buf Fl → Buf Nat → Option (Option (Buf Fl × Buf Nat))) {bits : Nat}
    (h : ¬ Supported bits) (nMeta nSym : Nat) (packed : Mem 8) (unpacked : Buf Nat) :
    (∀ bytes, writeBlock enc bits nMeta nSym packed unpacked ≠ .ok bytes) ∧
    (∀ mb sym, 4 * nMeta ≤ packed.len → enc (metaView nMeta packed) unpacked = some (some (mb, sym)) →
      writeBlock enc bits nMeta nSym packed unpacked = .error) := by
  have key : ∀ dest symbols, pack bits dest symbols nSym = .error dest := fun dest symbols =>
    (unsupported_refused bits nSym h symbols ⟨0, fun _ => 0⟩ dest ⟨0, fun _ => 0⟩).1
  constructor
  · intro bytes e
    unfold writeBlock at e
    split at e
    · cases e
    · split at e
      · cases e
      · cases e
      · rw [key] at e
        cases e
  · intro mb sym h1 h2
    unfold writeBlock
    rw [if_neg (by omega), h2]
    simp only [key]

section runs
variable {bad : Nat → Rows V → Bool}

theorem stepE_running {s s' : State V K p.threads} {l : Label V p.threads}
    (e : stepE p bad s l = some (.running s')) : step p s l = some s' := by
  unfold stepE at e
  split at e
  · split at e
    · split at e
      · cases e
      · obtain ⟨x, h1, h2⟩ := Option.map_eq_some_iff.mp e
        injection h2 with h2
        rw [h1, h2]
    · obtain ⟨x, h1, h2⟩ := Option.map_eq_some_iff.mp e
      injection h2 with h2
      rw [h1, h2]
  · obtain ⟨x, h1, h2⟩ := Option.map_eq_some_iff.mp e
    injection h2 with h2
    rw [h1, h2]

theorem stepE_terminated {s s' : State V K p.threads} {l : Label V p.threads}
    (e : stepE p bad s l = some (.terminated s')) :
    s' = s ∧ ∃ i b rows, s.threads i = .encode b rows ∧ bad b rows = true := by
  unfold stepE at e
  split at e
  · split at e
    · rename_i i _ b rows hi
      split at e
      · injection e with e
        injection e with e
        exact ⟨e.symm, i, b, rows, hi, by assumption⟩
      · obtain ⟨x, _, h2⟩ := Option.map_eq_some_iff.mp e
        cases h2
    · obtain ⟨x, _, h2⟩ := Option.map_eq_some_iff.mp e
      cases h2
  · obtain ⟨x, _, h2⟩ := Option.map_eq_some_iff.mp e
    cases h2

/-- A property of all states of a run. -/
theorem runE_induct {P : State V K p.threads → Prop}
    (hstep : ∀ s l s', P s → stepE p bad s l = some (.running s') → P s') {s0 : State V K p.threads}
    {ls : List (Label V p.threads)} {o : Out V K p.threads} (h0 : P s0) (e : runE p bad s0 ls = some o) : P o.state := by
  induction ls generalizing s0 with
  | nil => injection e with e; subst e; exact h0
  | cons l ls ih =>
    unfold runE at e
    split at e
    · cases e
    · rename_i s' h1
      split at e
      · injection e with e
        subst e
        obtain ⟨rfl, _⟩ := stepE_terminated h1
        exact h0
      · cases e
    · rename_i s' h1
      exact ih (hstep _ _ _ h0 h1) e

/-- The state of a run is one of a run without exceptions. -/
theorem runE_reachable {s0 : State V K p.threads} {ls : List (Label V p.threads)} {o : Out V K p.threads}
    (e : runE p bad s0 ls = some o) : Reachable p s0 o.state := by
  refine runE_induct (P := fun s => Reachable p s0 s) ?_ ⟨[], rfl⟩ e
  rintro s l s' ⟨ls, h⟩ h1
  refine ⟨ls ++ [l], ?_⟩
  have h2 := stepE_running h1
  clear e
  induction ls generalizing s0 with
  | nil => injection h with h; subst h; simp [run, h2]
  | cons a ls ih =>
    simp only [run, List.cons_append] at h ⊢
    cases ha : step p s0 a with
    | none => rw [ha] at h; cases h
    | some s1 => rw [ha] at h; simp only [Option.bind_some] at h ⊢; exact ih h

/-- A running state is reached by the same schedule without exceptions. -/
theorem runE_run {s0 s : State V K p.threads} {ls : List (Label V p.threads)}
    (e : runE p bad s0 ls = some (.running s)) : run p s0 ls = some s := by
  induction ls generalizing s0 with
  | nil => injection e with e; injection e with e; subst e; rfl
  | cons l ls ih =>
    unfold runE at e
    split at e
    · cases e
    · split at e <;> cases e
    · rename_i s' h1
      simp only [run, stepE_running h1]
      exact ih e

/-- Writes only grow by what a thread encodes without an exception. -/
theorem writes_step {f : Nat → Option (Rows V)} {s s' : State V K p.threads} {l : Label V p.threads} (hinv : Inv p f s)
    (e : stepE p bad s l = some (.running s')) (h : ∀ x ∈ s.writes, bad x.1 x.2 = false) :
    ∀ x ∈ s'.writes, bad x.1 x.2 = false := by
  have e' := stepE_running e
  cases l with
  | client junk =>
    rcases client_quiet hinv e' with hq | ⟨_, _, _, _, _, hq, _⟩
    · rw [hq.writes]; exact h
    · rw [hq]; exact h
  | thread i =>
    unfold stepE at e
    simp only at e
    have hseek : (s.seek i).writes = s.writes := by
      unfold State.seek
      split <;> rfl
    simp only [step, threadStep] at e'
    cases hi : s.threads i with
    | head =>
      simp only [hi] at e'
      split at e'
      · injection e' with e'; subst e'; exact h
      · injection e' with e'; subst e'; rw [hseek]; exact h
    | woken =>
      simp only [hi] at e'
      injection e' with e'; subst e'; rw [hseek]; exact h
    | encode b rows =>
      simp only [hi] at e' e
      split at e'
      · cases e'
      · injection e' with e'
        subst e'
        split at e
        · cases e
        · rename_i hb
          intro x hx
          rcases List.mem_append.mp hx with hx | hx
          · exact h x hx
          · rw [List.mem_singleton] at hx
            subst hx
            simpa using hb
    | written b =>
      simp only [hi] at e'
      injection e' with e'; subst e'; exact h
    | wait => simp only [hi] at e'; cases e'
    | done => simp only [hi] at e'; cases e'
  | spuriousThread i => injection e' with e'; subst e'; exact h
  | spuriousClient => injection e' with e'; subst e'; exact h
  | others m =>
    simp only [step] at e'
    split at e'
    · cases e'
    · injection e' with e'; subst e'; exact h

theorem mem_ofBlock {l : List (Nat × Rows V)} {b : Nat} {r : Rows V} : r ∈ ofBlock l b ↔ (b, r) ∈ l := by
  unfold ofBlock
  simp only [List.mem_map, List.mem_filter, beq_iff_eq]
  constructor
  · rintro ⟨⟨b', r'⟩, ⟨h1, h2⟩, h3⟩
    simp only at h2 h3
    subst h2 h3
    exact h1
  · intro h
    exact ⟨(b, r), ⟨h, rfl⟩, rfl⟩

/-- What holds in all states of a run from a new or reopened column. -/
theorem runE_inv (hn : 0 < p.threads) {k : K} {rows nBlocks : Nat} {file : Nat → Option (Rows V)} {todo : List (Op V)}
    {ls : List (Label V p.threads)} {o : Out V K p.threads}
    (e : runE p bad (initial p k rows file nBlocks todo) ls = some o) :
    Inv p (fileAt rows file) o.state ∧ ∀ x ∈ o.state.writes, bad x.1 x.2 = false := by
  refine runE_induct (P := fun s => Inv p (fileAt rows file) s ∧ ∀ x ∈ s.writes, bad x.1 x.2 = false) ?_
    ⟨initial_inv hn k rows file nBlocks todo, fun x hx => by cases hx⟩ e
  rintro s l s' ⟨h1, h2⟩ h3
  exact ⟨step_inv h1 hn (stepE_running h3), writes_step h1 h3 h2⟩

/-! ## Any program -/

/-- **C122** Along every schedule: a block for which encoding raises an exception is never written; the file has for
each block what was there before or a block without exception. -/
theorem bad_not_written (hn : 0 < p.threads) {k : K} {rows nBlocks : Nat} {file : Nat → Option (Rows V)}
    {todo : List (Op V)} {ls : List (Label V p.threads)} {o : Out V K p.threads}
    (e : runE p bad (initial p k rows file nBlocks todo) ls = some o) (b : Nat) :
    (∀ r, (b, r) ∈ o.state.writes → bad b r = false) ∧
    (o.state.file b = fileAt rows file b ∨ ∃ r, o.state.file b = some r ∧ bad b r = false) := by
  obtain ⟨h1, h2⟩ := runE_inv hn e
  refine ⟨fun r hr => h2 _ hr, ?_⟩
  rw [h1.core.file b]
  cases hl : (ofBlock o.state.writes b).getLast? with
  | none => exact Or.inl rfl
  | some r => exact Or.inr ⟨r, rfl, h2 _ (mem_ofBlock.mp (List.mem_of_getLast? hl))⟩

/-- **C122** If the column was closed without the program being ended, no block with an exception was ever stored. -/
theorem closed_no_bad (hn : 0 < p.threads) {k : K} {rows nBlocks : Nat} {file : Nat → Option (Rows V)}
    {todo : List (Op V)} {ls : List (Label V p.threads)} {s : State V K p.threads}
    (e : runE p bad (initial p k rows file nBlocks todo) ls = some (.running s)) (hc : s.client = .closed) :
    ∀ b r, (b, r) ∈ s.stores → bad b r = false := by
  obtain ⟨h1, h2⟩ := runE_inv hn e
  intro b r hr
  have hcl := h1.client
  unfold ClientOK at hcl
  rw [show (Out.running s).state = s from rfl, hc] at hcl
  have hs := h1.core.settled b (Or.inl (by
    rw [show (Out.running s).state = s from rfl, hcl.2.2]; rfl))
  have : r ∈ ofBlock s.stores b := mem_ofBlock.mpr hr
  rw [show (Out.running s).state = s from rfl] at hs
  rw [hs] at this
  exact h2 _ (mem_ofBlock.mp this)

/-! ## Writing a whole column -/

section whole
variable {m R rows0 nBlocks : Nat} {v : Nat → V} {todo : List (Op V)} {k : K}

theorem runE_whole (hn : 0 < p.threads) (hm : 0 < m) (hR0 : 0 < R) (hR : R ≤ noBlock)
    (hsame : ∀ r, 0 < r → r < m → p.differs (p.key r) (p.key 0) = false)
    (hdiff : m < R → p.differs (p.key m) (p.key 0) = true)
    (hrows : rows0 = m ∨ rows0 = 0 ∧ m < R) (hw : Whole m v R 0 todo) {ls : List (Label V p.threads)}
    {o : Out V K p.threads} (e : runE p bad (initial p k rows0 (fun _ => none) nBlocks todo) ls = some o) :
    WholeOK p m v R o.state := by
  have hf : fileAt rows0 (fun _ => none : Nat → Option (Rows V)) = fun _ => none := by
    unfold fileAt
    split <;> rfl
  refine (runE_induct (P := fun s => Inv p (fun _ => none) s ∧ WholeOK p m v R s) ?_
    ⟨?_, whole_initial hrows hw⟩ e).2
  · rintro s l s' ⟨h1, h2⟩ h3
    have h4 := stepE_running h3
    exact ⟨step_inv h1 hn h4, whole_step hm hR0 hR hsame hdiff h1 h2 h4⟩
  · have := initial_inv (p := p) hn k rows0 (fun _ => none) nBlocks todo
    rwa [show (if rows0 = 0 then fun _ => none else fun _ => none) = (fun _ => none : Nat → Option (Rows V)) from
      by split <;> rfl] at this

/-- **C122** A program that puts all rows of a column in order and closes it, where encoding one of the blocks raises
an exception: no schedule closes the column, and as long as the program was not ended a thread or the client can make a
step. The number of these steps is bounded, so the program is always ended by `std::terminate`. -/
theorem bad_block_ends (hn : 0 < p.threads) (hc : 1 ≤ p.maxCache) (hm : 0 < m) (hR0 : 0 < R) (hR : R ≤ noBlock)
    (hsame : ∀ r, 0 < r → r < m → p.differs (p.key r) (p.key 0) = false)
    (hdiff : m < R → p.differs (p.key m) (p.key 0) = true)
    (hrows : rows0 = m ∨ rows0 = 0 ∧ m < R) (hw : Whole m v R 0 todo) {c : Nat} (hcb : c * m < R)
    (hbad : ∀ r, bad c r = true) {ls : List (Label V p.threads)} {s : State V K p.threads}
    (e : runE p bad (initial p k rows0 (fun _ => none) nBlocks todo) ls = some (.running s)) :
    s.client ≠ .closed ∧
    (∀ junk, (∃ o, stepE p bad s (.client junk) = some o) ∨ ∃ i o, stepE p bad s (.thread i) = some o) ∧
    ls.countP (·.real) ≤ work (initial p k rows0 (fun _ => none) nBlocks todo) + ls.countP (·.spurious) := by
  have hnc : s.client ≠ .closed := by
    intro hcl
    have hok := runE_whole hn hm hR0 hR hsame hdiff hrows hw e
    unfold WholeOK at hok
    rw [show (Out.running s).state = s from rfl, hcl] at hok
    obtain ⟨_, g, hg, _⟩ := hok
    have hmem : (c, g c) ∈ s.stores := by
      rw [hg, List.mem_map]
      refine ⟨c, List.mem_range.mpr ?_, rfl⟩
      rw [Nat.lt_succ_iff, Nat.le_div_iff_mul_le hm]
      omega
    have := closed_no_bad hn e hcl c (g c) hmem
    rw [hbad] at this
    cases this
  refine ⟨hnc, fun junk => ?_, ?_⟩
  · by_contra hx
    push Not at hx
    obtain ⟨h1, h2⟩ := hx
    obtain ⟨_, _, h3, _⟩ := whole_column hn hc hm hR0 hR hsame hdiff hrows hw (runE_reachable e)
    refine hnc (h3 junk ?_ fun i => ?_)
    · cases hs : step p s (.client junk) with
      | none => exact hs
      | some s1 => exact absurd (by simp [stepE, hs]) (h1 (.running s1))
    · cases hs : step p s (.thread i) with
      | none => exact hs
      | some s1 =>
        exfalso
        cases hi : s.threads i with
        | encode b rows =>
          by_cases hb : bad b rows = true
          · exact h2 i (.terminated s) (by simp [stepE, hi, hb])
          · exact h2 i (.running s1) (by simp [stepE, hi, hb, hs])
        | _ => exact h2 i (.running s1) (by simp [stepE, hi, hs])
  · have := steps_bounded (runE_run e)
    omega

end whole

/-! ## All blocks refused -/

section refused
variable {m R rows0 nBlocks : Nat} {v : Nat → V} {todo : List (Op V)} {k : K}

/-- With a number of bits that is not supported every block raises an exception. -/
def allBad : Nat → Rows V → Bool := fun _ _ => true

theorem wake_written {pc : ThreadPC V} {b : Nat} (h : pc.wake = .written b) : pc = .written b := by
  cases pc <;> simp_all [ThreadPC.wake]

/-- Without a finished block no thread reaches the point after it. -/
theorem noWritten_step {f : Nat → Option (Rows V)} {s s' : State V K p.threads} {l : Label V p.threads}
    (hinv : Inv p f s) (e : stepE p allBad s l = some (.running s')) (h : ∀ i b, s.threads i ≠ .written b) :
    ∀ i b, s'.threads i ≠ .written b := by
  have e' := stepE_running e
  cases l with
  | client junk =>
    intro i b hb
    rcases client_quiet hinv e' with hq | ⟨_, _, _, _, _, _, hq⟩
    · rcases hq.threads i with h1 | h1 | ⟨_, h1⟩
      · exact h i b (h1 ▸ hb)
      · exact h i b (wake_written (h1 ▸ hb))
      · rw [h1] at hb; cases hb
    · exact h i b (wake_written (hq i ▸ hb))
  | thread i =>
    have key : ∀ pc : ThreadPC V, (∀ b, pc ≠ .written b) → ∀ j b, Function.update s.threads i pc j ≠ .written b := by
      intro pc hpc j b
      by_cases hj : j = i
      · subst hj; simpa using hpc b
      · rw [Function.update_of_ne hj]; exact h j b
    have hseek : ∀ j b, (s.seek i).threads j ≠ .written b := by
      unfold State.seek
      split
      · exact key _ (fun b hb => by cases hb)
      · refine key _ (fun b hb => ?_)
        split at hb <;> cases hb
    unfold stepE at e
    simp only at e
    simp only [step, threadStep] at e'
    cases hi : s.threads i with
    | head =>
      simp only [hi] at e'
      split at e'
      · injection e' with e'; subst e'; exact key _ (fun b hb => by cases hb)
      · injection e' with e'; subst e'; exact hseek
    | woken =>
      simp only [hi] at e'
      injection e' with e'; subst e'; exact hseek
    | encode b rows => simp [hi, allBad] at e
    | written b => exact absurd hi (h i b)
    | wait => simp only [hi] at e'; cases e'
    | done => simp only [hi] at e'; cases e'
  | spuriousThread i =>
    injection e' with e'
    subst e'
    intro j b hb
    by_cases hj : j = i
    · subst hj
      simp only [Function.update_self] at hb
      exact h j b (wake_written hb)
    · simp only [Function.update_of_ne hj] at hb
      exact h j b hb
  | spuriousClient => injection e' with e'; subst e'; exact h
  | others m =>
    simp only [step] at e'
    split at e'
    · cases e'
    · injection e' with e'; subst e'; exact h

theorem cache_is_stores {f : Nat → Option (Rows V)} {s : State V K p.threads} (h : Inv p f s) (hw : s.writes = [])
    (hnw : ∀ i b, s.threads i ≠ .written b) {q : Nat} (hs : StoredUpTo m v R q s) : s.cache.length = q ∧ ∀ b, s.cache.has b = true ↔ b < q := by
  obtain ⟨g, hg, -⟩ := hs
  have hhas : ∀ b, s.cache.has b = true ↔ b < q := by
    intro b
    constructor
    · intro hb
      obtain ⟨it, hit⟩ := (has_iff _ _).mp hb
      have := h.core.pending b it hit fun i => hnw i b
      rw [hg, ofBlock_range, hw] at this
      by_contra hq
      rw [if_neg hq] at this
      simp [ofBlock] at this
    · intro hb
      by_contra hx
      have := h.core.settled b (Or.inl (by simpa using hx))
      rw [hg, ofBlock_range, hw, if_pos hb] at this
      simp [ofBlock] at this
  refine ⟨?_, hhas⟩
  have hkeys : (s.cache.map (·.1)).Perm (List.range q) := by
    rw [List.perm_ext_iff_of_nodup h.core.keys List.nodup_range]
    intro b
    rw [List.mem_range, ← hhas b, has_iff]
    simp
  have := hkeys.length_eq
  simpa using this

/-- All rows were put and the column is not closed yet. In `dscompress` the old column is removed now
(stmanmodifier.h:121-135). -/
def Copied (s : State V K n) : Prop := s.client = .idle ∧ s.todo = [.close]

/-- What holds during the run. -/
structure Refused (p : Params V K) (m : Nat) (v : Nat → V) (R : Nat) (s : State V K p.threads) : Prop where
  inv : Inv p (fun _ => none) s
  whole : WholeOK p m v R s
  writes : s.writes = []
  threads : ∀ i b, s.threads i ≠ .written b

/-- The client is not waiting for the threads and has not closed. -/
def Free (s : State V K n) : Prop :=
  match s.client with
  | .idle | .store (.load _) | .load _ => True
  | _ => False

theorem refused_step (hn : 0 < p.threads) (hm : 0 < m) (hR0 : 0 < R) (hR : R ≤ noBlock)
    (hsame : ∀ r, 0 < r → r < m → p.differs (p.key r) (p.key 0) = false)
    (hdiff : m < R → p.differs (p.key m) (p.key 0) = true) {s s' : State V K p.threads} {l : Label V p.threads}
    (h : Refused p m v R s) (e : stepE p allBad s l = some (.running s')) : Refused p m v R s' := by
  have e' := stepE_running e
  refine ⟨step_inv h.inv hn e', whole_step hm hR0 hR hsame hdiff h.inv h.whole e', ?_, noWritten_step h.inv e h.threads⟩
  have := writes_step h.inv e (by rw [h.writes]; simp)
  cases hw : s'.writes with
  | nil => rfl
  | cons x xs => rw [hw] at this; exact absurd (this x (by simp)) (by simp [allBad])

theorem refused_initial (hn : 0 < p.threads) (hrows : rows0 = m ∨ rows0 = 0 ∧ m < R) (hw : Whole m v R 0 todo) :
    Refused p m v R (initial p k rows0 (fun _ => none) nBlocks todo) := by
  refine ⟨?_, whole_initial hrows hw, rfl, fun i b hb => ?_⟩
  · have := initial_inv (p := p) hn k rows0 (fun _ => none) nBlocks todo
    rwa [show (if rows0 = 0 then fun _ => none else fun _ => none) = (fun _ => none : Nat → Option (Rows V)) from
      by split <;> rfl] at this
  · simp only [initial] at hb
    split at hb <;> cases hb

/-- As long as there is room in the cache the client can go on by itself. -/
theorem free_step (hm : 0 < m) (hR : R ≤ noBlock) (hroom : (R - 1) / m ≤ p.maxCache) {s : State V K p.threads}
    (h : Refused p m v R s) (hf : Free s) (junk : Nat → V) :
    Copied s ∨ ∃ s', clientStep p s junk = some s' ∧ (WholeOK p m v R s' → Free s') := by
  have hok := h.whole
  unfold WholeOK at hok
  unfold Free at hf
  have hacc : ∀ (t : State V K p.threads) (k : Next V), Free (t.access k) := by
    intro t k
    unfold State.access
    split
    · split <;> trivial
    · cases k <;> trivial
  cases hc : s.client with
  | idle =>
    rw [hc] at hok
    obtain ⟨r, hw, _⟩ := hok
    cases ht : s.todo with
    | nil => rw [ht] at hw; exact hw.elim
    | cons op rest =>
      rw [ht] at hw
      cases op with
      | close =>
        cases rest with
        | nil => exact Or.inl ⟨hc, ht⟩
        | cons _ _ => exact hw.elim
      | get _ => cases rest <;> exact hw.elim
      | addColumn => cases rest <;> exact hw.elim
      | put row x =>
        refine Or.inr ⟨_, by simp only [clientStep, hc, ht]; rfl, fun hok' => ?_⟩
        unfold State.call at hok' ⊢
        simp only at hok' ⊢
        unfold State.put at hok' ⊢
        split
        · exact hacc _ _
        · split
          · simp [Free]
          · split
            · split
              · rename_i h1 h2 h3 h4
                rw [if_neg h1, if_neg h2, if_pos h3, if_pos h4] at hok'
                exact hok'.elim
              · split
                · rename_i h1 h2 h3 h4 h5
                  rw [if_neg h1, if_neg h2, if_pos h3, if_neg h4, if_pos h5] at hok'
                  exact hok'.elim
                · exact hacc _ _
            · simp [Free]
      | otherInit m' =>
        refine Or.inr ⟨_, by simp only [clientStep, hc, ht]; rfl, fun hok' => ?_⟩
        unfold State.call at hok' ⊢
        simp only at hok' ⊢
        split
        · simp [Free]
        · split
          · rename_i h1 h2
            rw [if_neg h1, if_pos h2] at hok'
            exact hok'.elim
          · split
            · rename_i h1 h2 h3
              rw [if_neg h1, if_neg h2, if_pos h3] at hok'
              exact hok'.elim
            · simp [Free, State.start]
  | store k =>
    rw [hc] at hok hf
    cases k with
    | stop => exact hf.elim
    | load k =>
      obtain ⟨q, _, hq, _, _, hcur, _, hst⟩ := hok
      obtain ⟨hlen, hhas⟩ := cache_is_stores h.inv h.writes h.threads hst
      have hqm : q + 1 ≤ (R - 1) / m := by
        rw [Nat.le_div_iff_mul_le hm]; omega
      have hqn : q ≠ noBlock := by
        have : (R - 1) / m ≤ R - 1 := Nat.div_le_self _ _
        omega
      refine Or.inr ⟨_, by simp only [clientStep, hc]; rfl, fun _ => ?_⟩
      unfold State.storeBlock
      rw [if_neg (by rw [hcur]; exact hqn), if_neg]
      · trivial
      · rintro (h1 | h1)
        · omega
        · rw [hcur, hhas] at h1; omega
  | load k =>
    refine Or.inr ⟨_, by simp only [clientStep, hc]; rfl, fun _ => ?_⟩
    cases k <;> trivial
  | _ => rw [hc] at hf; exact hf.elim

/-- **C122** With a number of bits that is not supported, a program puts all rows of a column before it is ended, for
some timing of the threads, exactly if all blocks but the last fit in the write cache. -/
theorem copied_iff (hn : 0 < p.threads) (hm : 0 < m) (hR0 : 0 < R) (hR : R ≤ noBlock)
    (hsame : ∀ r, 0 < r → r < m → p.differs (p.key r) (p.key 0) = false)
    (hdiff : m < R → p.differs (p.key m) (p.key 0) = true)
    (hrows : rows0 = m ∨ rows0 = 0 ∧ m < R) (hw : Whole m v R 0 todo) :
    (∃ ls s, runE p allBad (initial p k rows0 (fun _ => none) nBlocks todo) ls = some (.running s) ∧ Copied s) ↔
      (R - 1) / m ≤ p.maxCache := by
  constructor
  · rintro ⟨ls, s, e, hc, ht⟩
    have h : Refused p m v R s := runE_induct (P := Refused p m v R)
      (fun s l s' h1 h2 => refused_step hn hm hR0 hR hsame hdiff h1 h2) (refused_initial hn hrows hw) e
    have hok := h.whole
    unfold WholeOK at hok
    rw [hc] at hok
    obtain ⟨r, h1, _, h3⟩ := hok
    rw [ht] at h1
    have h1 : r = R := h1
    subst h1
    rcases h3 with h3 | h3
    · have := h3.le
      have := h3.more
      omega
    · obtain ⟨_, _, _, h4⟩ := h3.some hR0
      rw [← (cache_is_stores h.inv h.writes h.threads h4).1]
      exact h.inv.core.size
  · intro hroom
    have key : ∀ w (s : State V K p.threads), work s = w → Refused p m v R s → Free s →
        ∃ ls s', runE p allBad s ls = some (.running s') ∧ Copied s' := by
      intro w
      induction w using Nat.strong_induction_on with
      | _ w ih =>
        intro s hs h hf
        rcases free_step hm hR hroom h hf (fun _ => v 0) with h1 | ⟨s1, h1, h2⟩
        · exact ⟨[], s, rfl, h1⟩
        · have h3 : stepE p allBad s (.client fun _ => v 0) = some (.running s1) := by
            simp [stepE, step, h1]
          have h4 := refused_step hn hm hR0 hR hsame hdiff h h3
          obtain ⟨ls, s', h5, h6⟩ := ih (work s1) (hs ▸ client_work h1) s1 rfl h4 (h2 h4.whole)
          refine ⟨.client (fun _ => v 0) :: ls, s', ?_, h6⟩
          simp only [runE, h3]
          exact h5
    exact key _ _ rfl (refused_initial hn hrows hw) trivial

/-- **C122** (negative) If they do, there is a schedule in which all rows were put, so that the old column is removed,
and after which nothing is in the file; and however it goes on, nothing ever is, the column is never closed, and the
program can always make a step until it is ended: all data are lost. -/
theorem copied_lost (hn : 0 < p.threads) (hc : 1 ≤ p.maxCache) (hm : 0 < m) (hR0 : 0 < R) (hR : R ≤ noBlock)
    (hsame : ∀ r, 0 < r → r < m → p.differs (p.key r) (p.key 0) = false)
    (hdiff : m < R → p.differs (p.key m) (p.key 0) = true)
    (hrows : rows0 = m ∨ rows0 = 0 ∧ m < R) (hw : Whole m v R 0 todo) (hroom : (R - 1) / m ≤ p.maxCache) :
    (∃ ls s, runE p allBad (initial p k rows0 (fun _ => none) nBlocks todo) ls = some (.running s) ∧ Copied s) ∧
    (∀ ls o, runE p allBad (initial p k rows0 (fun _ => none) nBlocks todo) ls = some o → ∀ b, o.state.file b = none) ∧
    (∀ ls s, runE p allBad (initial p k rows0 (fun _ => none) nBlocks todo) ls = some (.running s) →
      s.client ≠ .closed ∧ ∀ junk, (∃ o, stepE p allBad s (.client junk) = some o) ∨
        ∃ i o, stepE p allBad s (.thread i) = some o) := by
  refine ⟨(copied_iff hn hm hR0 hR hsame hdiff hrows hw).mpr hroom, fun ls o e b => ?_, fun ls s e => ?_⟩
  · have hf : fileAt rows0 (fun _ => none : Nat → Option (Rows V)) b = none := by
      unfold fileAt
      split <;> rfl
    rcases (bad_not_written hn e b).2 with h | ⟨r, _, h⟩
    · rw [h, hf]
    · cases h
  · obtain ⟨h1, h2, _⟩ := bad_block_ends hn hc hm hR0 hR hsame hdiff hrows hw (c := 0) (by omega) (fun _ => rfl) e
    exact ⟨h1, h2⟩

end refused

end runs

/-- The hypotheses are met by a table of three blocks of two rows and a cache of two blocks. -/
example : ∃ (p : Params Nat Nat) (m R : Nat) (v : Nat → Nat) (todo : List (Op Nat)), 0 < p.threads ∧ 1 ≤ p.maxCache ∧
    0 < m ∧ m < R ∧ R ≤ noBlock ∧ (∀ r, 0 < r → r < m → p.differs (p.key r) (p.key 0) = false) ∧
    (m < R → p.differs (p.key m) (p.key 0) = true) ∧ Whole m v R 0 todo ∧ (R - 1) / m ≤ p.maxCache ∧ ¬ Supported 5 := by
  refine ⟨⟨2, 2, fun r => r / 2, fun a b => decide (a ≠ b), fun _ _ r => r⟩, 2, 6, fun r => r,
    [.put 0 0, .put 1 1, .put 2 2, .put 3 3, .put 4 4, .put 5 5, .close], by decide, by decide, by decide, by decide,
    by decide, ?_, by decide, by simp [Whole], by decide, by unfold Supported; decide⟩
  intro r h1 h2
  have : r = 1 := by omega
  subst this
  decide

end Dysco.Col
