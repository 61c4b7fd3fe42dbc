import Verif.StmtClient

/-!
# C128: the steps of `ColumnModel` are enough

Every run of the statement by statement model of `StmtModel` gives what some run of `ColumnModel` gives, in which each
section with the mutex is one step, so that all theorems about those runs hold for it.
-/

namespace Dysco.Stmt
open Col
variable {V K : Type} {n : Nat} {p : Params V K}

/-! ## Wake-ups without notification, and other columns -/

theorem tr_both {q : Bool} {pc : TPC V} {c : ThreadPC V} (h : TR q pc c) : TR q pc.wake (if q then c else c.wake) := by
  cases q with
  | false =>
    revert h
    cases pc with
    | scan again k => cases again <;> (intro h; rw [show c = _ from h]; rfl)
    | missing again => cases again <;> (intro h; rw [show c = _ from h]; rfl)
    | found again k => cases again <;> (intro h; rw [show c = _ from h]; rfl)
    | unlock b => rintro ⟨r, rfl⟩; exact ⟨r, rfl⟩
    | encode b => rintro ⟨r, rfl⟩; exact ⟨r, rfl⟩
    | dangling => exact fun h => h
    | _ => intro h; rw [show c = _ from h]; rfl
  | true =>
    revert h
    cases pc <;> exact fun h => h

theorem abs_of_wake (pc : CPC V) : pc.wake.abs = pc.abs.wake := by
  cases hw : pc.waits with
  | true =>
    cases pc with
    | storeWait k item => rfl
    | getWait row => rfl
    | stopWait prep => cases prep <;> rfl
    | _ => cases hw
  | false =>
    rw [abs_wake hw]
    cases pc <;> first | rfl | cases hw

theorem wake_wake (pc : ClientPC V) : pc.wake.wake = pc.wake := by cases pc <;> rfl

section env
variable {F F' : SState V K p.threads} {t : Fin p.threads → ThreadPC V} {f : Nat → Option (Rows V)}

theorem sim_env (h : OK p F) (ht : Thr F t) {l : Label V p.threads} (hl : l.real = false) (e : sstep p F l = some F') :
    OK p F' ∧ Sim p F F' t l ∧ F'.rank p.maxCache = F.rank p.maxCache := by
  cases l with
  | client junk => cases hl
  | thread i => cases hl
  | spuriousThread i =>
    cases e
    have hth : ∀ j, ((F.setT i (F.threads i).wake).threads j) = if j = i then (F.threads j).wake else F.threads j := by
      intro j
      by_cases hj : j = i
      · subst hj; simp [SState.setT]
      · simp [SState.setT, hj]
    have hn : ∀ j, ((F.setT i (F.threads i).wake).threads j).isNotify = (F.threads j).isNotify := by
      intro j
      rw [hth]
      split
      · cases F.threads j <;> rfl
      · rfl
    have hh : ∀ j, ((F.setT i (F.threads i).wake).threads j).holds = (F.threads j).holds := by
      intro j
      rw [hth]
      split
      · cases F.threads j <;> rfl
      · rfl
    have hp : (F.setT i (F.threads i).wake).pend = F.pend := by
      rcases hm : F.mutex with _ | (_ | j)
      · rw [(pend_none hm).1]; exact (pend_none (F := F.setT i (F.threads i).wake) hm).1
      · rw [(pend_client hm).1]; exact (pend_client (F := F.setT i (F.threads i).wake) hm).1
      · rw [(pend_thread hm).1, ← hn]; exact (pend_thread (F := F.setT i (F.threads i).wake) hm).1
    have hpc : (F.setT i (F.threads i).wake).pendC = F.pendC := by
      rcases hm : F.mutex with _ | (_ | j)
      · rw [(pend_none hm).2]; exact (pend_none (F := F.setT i (F.threads i).wake) hm).2
      · rw [(pend_client hm).2]; exact (pend_client (F := F.setT i (F.threads i).wake) hm).2
      · rw [(pend_thread hm).2, ← hn]; exact (pend_thread (F := F.setT i (F.threads i).wake) hm).2
    have habs : ∀ t', (F.setT i (F.threads i).wake).abs t' = { F.abs t with threads := t' } := by
      intro t'
      unfold SState.abs
      rw [hpc]
      rfl
    have hrk : (F.setT i (F.threads i).wake).rank p.maxCache = F.rank p.maxCache := by
      unfold SState.rank
      have h1 : ∀ j, ((F.setT i (F.threads i).wake).threads j).rank p.maxCache = (F.threads j).rank p.maxCache := by
        intro j
        rw [hth]
        split
        · exact rank_wake _ _
        · rfl
      simp only [h1]
      rfl
    refine ⟨⟨fun j => ?_, h.mc, fun j => ?_, h.cok⟩, ?_, hrk⟩
    · rw [hh]; exact h.mt j
    · rw [hth]
      have h3 := h.tok j
      split
      · cases hc : F.threads j <;> rw [hc] at h3 <;> exact h3
      · exact h3
    · cases hq : F.pend with
      | true =>
        refine Or.inl ⟨by rw [habs]; rfl, fun j => ?_, by rw [hrk]; simp [Label.real]⟩
        rw [hp, hth]
        have h1 := ht j
        split
        · rw [hq] at h1 ⊢; exact tr_both h1
        · exact h1
      | false =>
        refine Or.inr ⟨Function.update t i (t i).wake, ?_, fun j => ?_⟩
        · rw [habs]; rfl
        · rw [hp, hth]
          have h1 := ht j
          by_cases hj : j = i
          · subst hj
            rw [if_pos rfl, Function.update_self]
            rw [hq] at h1 ⊢; exact tr_both h1
          · rw [if_neg hj, Function.update_of_ne hj]; exact h1
  | spuriousClient =>
    cases e
    have hn : F.client.wake.isNotify = F.client.isNotify := by cases F.client <;> rfl
    have hh : F.client.wake.holds = F.client.holds := by cases F.client <;> rfl
    have hp : ({ F with client := F.client.wake } : SState V K p.threads).pend = F.pend := by
      unfold SState.pend
      rw [hn]
    have hpc : ({ F with client := F.client.wake } : SState V K p.threads).pendC = F.pendC := rfl
    have hb : F.client.wake.buf F.d.buffer = F.client.buf F.d.buffer := by cases F.client <;> rfl
    have hg : F.client.wake.chg F.d.changed = F.client.chg F.d.changed := by cases F.client <;> rfl
    have hrk : ({ F with client := F.client.wake } : SState V K p.threads).rank p.maxCache = F.rank p.maxCache := by
      unfold SState.rank
      rw [crank_wake]
    refine ⟨⟨h.mt, ?_, h.tok, ?_⟩, ?_, hrk⟩
    · rw [hh]; exact h.mc
    · have h3 := h.cok
      change COK p F.d F.client.wake
      cases hc : F.client <;> rw [hc] at h3 <;> exact h3
    · have ht' : Thr ({ F with client := F.client.wake } : SState V K p.threads) t := by
        intro j
        rw [hp]
        exact ht j
      cases hq : F.pendC with
      | true =>
        refine Or.inl ⟨?_, ht', by rw [hrk]; simp [Label.real]⟩
        unfold SState.abs
        simp only [hpc, hq, if_true, hb, hg, abs_of_wake, wake_wake]
      | false =>
        refine Or.inr ⟨t, ?_, ht'⟩
        unfold SState.abs
        simp only [hpc, hq, hb, hg, abs_of_wake, step]
        rfl
  | others blocks =>
    change (if F.d.locked then none else _) = some F' at e
    split at e
    · cases e
    rename_i hk
    cases e
    refine ⟨⟨h.mt, h.mc, h.tok, ?_⟩, Or.inr ⟨t, ?_, ht⟩, rfl⟩
    · have h3 := h.cok
      change COK p _ F.client
      cases hc : F.client <;> rw [hc] at h3 <;> exact h3
    · have hk' : ¬ (F.abs t).locked = true := hk
      simp only [step]
      rw [if_neg hk']
      rfl

theorem sim_step (h : OK p F) (ht : Thr F t) (hI : Inv p f (F.abs t)) {l : Label V p.threads} (e : sstep p F l = some F') :
    OK p F' ∧ Sim p F F' t l := by
  cases l with
  | client junk => exact sim_client h ht hI.core hI.offsets e
  | thread i => exact sim_thread h ht hI.core e
  | spuriousThread i => have := sim_env h ht rfl e; exact ⟨this.1, this.2.1⟩
  | spuriousClient => have := sim_env h ht rfl e; exact ⟨this.1, this.2.1⟩
  | others b => have := sim_env h ht rfl e; exact ⟨this.1, this.2.1⟩

end env

/-! ## Runs -/

/-- What the state of the two models have in common. -/
structure Rel (p : Params V K) (f : Nat → Option (Rows V)) (F : SState V K p.threads) (s : State V K p.threads) : Prop where
  ok : OK p F
  inv : Inv p f s
  abs : ∃ t, Thr F t ∧ s = F.abs t

theorem rel_step {f : Nat → Option (Rows V)} (hn : 0 < p.threads) {F F' : SState V K p.threads} {s : State V K p.threads}
    (h : Rel p f F s) {l : Label V p.threads} (e : sstep p F l = some F') :
    ∃ s', Rel p f F' s' ∧ (s' = s ∧ F'.rank p.maxCache + (if l.real then 1 else 0) ≤ F.rank p.maxCache ∨
      step p s l = some s') := by
  obtain ⟨hok, hinv, t, ht, rfl⟩ := h
  obtain ⟨hok', h1 | ⟨t', h1, h2⟩⟩ := sim_step hok ht hinv e
  · exact ⟨F.abs t, ⟨hok', hinv, t, h1.2.1, h1.1.symm⟩, Or.inl ⟨rfl, h1.2.2⟩⟩
  · exact ⟨F'.abs t', ⟨hok', step_inv hinv hn h1, t', h2, rfl⟩, Or.inr h1⟩

theorem rel_run {f : Nat → Option (Rows V)} (hn : 0 < p.threads) {F F' : SState V K p.threads} {s : State V K p.threads}
    (h : Rel p f F s) {ls : List (Label V p.threads)} (e : srun p F ls = some F') :
    ∃ ls' s', ls'.Sublist ls ∧ run p s ls' = some s' ∧ Rel p f F' s' := by
  induction ls generalizing F s with
  | nil => injection e with e; subst e; exact ⟨[], s, .slnil, rfl, h⟩
  | cons l ls ih =>
    simp only [srun] at e
    cases h1 : sstep p F l with
    | none => rw [h1] at e; cases e
    | some F1 =>
      rw [h1] at e
      obtain ⟨s1, hr, h2⟩ := rel_step hn h h1
      obtain ⟨ls', s', hsub, h3, h4⟩ := ih hr e
      rcases h2 with ⟨rfl, _⟩ | h2
      · exact ⟨ls', s', hsub.cons l, h3, h4⟩
      · exact ⟨l :: ls', s', hsub.cons_cons l, by simp only [run, h2]; exact h3, h4⟩

theorem rel_initial (hn : 0 < p.threads) (k : K) (rows : Nat) (file : Nat → Option (Rows V)) (nBlocks : Nat)
    (todo : List (Op V)) :
    Rel p (fileAt rows file) (sinitial p k rows file nBlocks todo) (initial p k rows file nBlocks todo) := by
  refine ⟨⟨fun i => ?_, ?_, fun i => ?_, trivial⟩, initial_inv hn k rows file nBlocks todo,
    (initial p k rows file nBlocks todo).threads, fun i => ?_, rfl⟩
  · simp only [sinitial]
    split <;> simp [TPC.holds]
  · simp [sinitial, CPC.holds]
  · simp only [sinitial]
    split <;> trivial
  · simp only [sinitial, initial]
    split <;> rfl

theorem rel_reach (hn : 0 < p.threads) {k : K} {rows nBlocks : Nat} {file : Nat → Option (Rows V)} {todo : List (Op V)}
    {ls : List (Label V p.threads)} {F : SState V K p.threads}
    (e : srun p (sinitial p k rows file nBlocks todo) ls = some F) :
    ∃ s, Reachable p (initial p k rows file nBlocks todo) s ∧ Rel p (fileAt rows file) F s := by
  obtain ⟨ls', s, _, h1, h2⟩ := rel_run hn (rel_initial hn k rows file nBlocks todo) e
  exact ⟨s, ⟨ls', h1⟩, h2⟩

/-! ## C128 -/

/-- The variables of a state of either model that others can observe are the same, and the client has returned from a
call, or from the last one, in both. -/
structure Agree (F : SState V K n) (s : State V K n) : Prop where
  file : F.d.file = s.file
  nBlocks : F.d.nBlocks = s.nBlocks
  outs : F.d.outs = s.outs
  stores : F.d.stores = s.stores
  writes : F.d.writes = s.writes
  cache : F.d.cache = s.cache
  stop : F.d.stop = s.stop
  started : F.d.started = s.started
  locked : F.d.locked = s.locked
  todo : F.d.todo = s.todo
  idle : F.client = .idle → s.client = .idle ∧ F.d.buffer = s.buffer ∧ F.d.current = s.current ∧ F.d.changed = s.changed
  closed : F.client = .closed → s.client = .closed
  failed : F.client = .failed → s.client = .failed

/-- Whatever the schedule of the statements, some schedule of `ColumnModel` leads to the same: each step of it stands for
one statement of the same client or thread, in the same order. -/
theorem statements_same (hn : 0 < p.threads) {k : K} {rows nBlocks : Nat} {file : Nat → Option (Rows V)} {todo : List (Op V)}
    {ls : List (Label V p.threads)} {F : SState V K p.threads}
    (e : srun p (sinitial p k rows file nBlocks todo) ls = some F) :
    ∃ ls' s, ls'.Sublist ls ∧ run p (initial p k rows file nBlocks todo) ls' = some s ∧ Agree F s := by
  obtain ⟨ls', s, hsub, h1, h2⟩ := rel_run hn (rel_initial hn k rows file nBlocks todo) e
  obtain ⟨t, ht, rfl⟩ := h2.abs
  refine ⟨ls', _, hsub, h1, rfl, rfl, rfl, rfl, rfl, rfl, rfl, rfl, rfl, rfl, fun h => ?_, fun h => ?_, fun h => ?_⟩
  · refine ⟨?_, ?_, rfl, ?_⟩
    · rw [client_abs (by rw [h]; rfl), h]; rfl
    · simp only [SState.abs, h, CPC.buf]
    · simp only [SState.abs, h, CPC.chg]
  · rw [client_abs (by rw [h]; rfl), h]; rfl
  · rw [client_abs (by rw [h]; rfl), h]; rfl

/-- The statements between taking and releasing the mutex are executed by one at a time. -/
theorem one_holder (hn : 0 < p.threads) {k : K} {rows nBlocks : Nat} {file : Nat → Option (Rows V)} {todo : List (Op V)}
    {ls : List (Label V p.threads)} {F : SState V K p.threads}
    (e : srun p (sinitial p k rows file nBlocks todo) ls = some F) :
    (∀ i j, (F.threads i).holds = true → (F.threads j).holds = true → i = j) ∧
      (F.client.holds = true → ∀ i, (F.threads i).holds = false) := by
  obtain ⟨s, _, h2⟩ := rel_reach hn e
  refine ⟨fun i j hi hj => ?_, fun hc i => ?_⟩
  · have h3 := (h2.ok.mt i).mp hi
    rw [(h2.ok.mt j).mp hj] at h3
    injection h3 with h3
    injection h3 with h3
    exact h3.symm
  · cases hi : (F.threads i).holds with
    | false => rfl
    | true =>
      have h3 := (h2.ok.mt i).mp hi
      rw [h2.ok.mc.mp hc] at h3
      cases h3

/-- A thread never uses an item that is no longer in the cache, and what it is about to write is what the cache
holds for the block. -/
theorem never_dangling (hn : 0 < p.threads) {k : K} {rows nBlocks : Nat} {file : Nat → Option (Rows V)} {todo : List (Op V)}
    {ls : List (Label V p.threads)} {F : SState V K p.threads}
    (e : srun p (sinitial p k rows file nBlocks todo) ls = some F) (i : Fin p.threads) :
    (∀ b, F.threads i = .unlock b ∨ F.threads i = .encode b ∨ F.threads i = .relock b ∨ F.threads i = .erase b →
      ∃ r, (b, ⟨r, true⟩) ∈ F.d.cache) ∧
    (∀ b r, F.threads i = .write b r → (b, ⟨r, true⟩) ∈ F.d.cache) ∧
    F.threads i ≠ .dangling := by
  obtain ⟨s, _, h2⟩ := rel_reach hn e
  obtain ⟨t, ht, rfl⟩ := h2.abs
  have hc := h2.inv.core
  have h3 := ht i
  refine ⟨fun b h4 => ?_, fun b r h4 => ?_, ?_⟩
  · rcases h4 with h4 | h4 | h4 | h4
    · rw [h4] at h3
      obtain ⟨r, h3⟩ := h3
      exact ⟨r, hc.encoding i b r h3⟩
    · rw [h4] at h3
      obtain ⟨r, h3⟩ := h3
      exact ⟨r, hc.encoding i b r h3⟩
    · rw [h4] at h3; exact hc.writing i b h3
    · rw [h4] at h3; exact hc.writing i b h3
  · rw [h4] at h3; exact hc.encoding i b r h3
  · intro h4; rw [h4] at h3; exact h3

/-- After closing, every stored block has been written, and all threads have ended. -/
theorem statements_closed (hn : 0 < p.threads) {k : K} {rows nBlocks : Nat} {file : Nat → Option (Rows V)}
    {todo : List (Op V)} {ls : List (Label V p.threads)} {F : SState V K p.threads}
    (e : srun p (sinitial p k rows file nBlocks todo) ls = some F) (hc : F.client = .closed) :
    F.d.cache = [] ∧ (∀ i, F.threads i = .done) ∧ F.mutex = none ∧ F.d.writes.Perm F.d.stores ∧
      ∀ b, F.d.file b = ((ofBlock F.d.stores b).getLast?).or (fileAt rows file b) := by
  obtain ⟨s, h1, h2⟩ := rel_reach hn e
  obtain ⟨t, ht, rfl⟩ := h2.abs
  have h3 := closed_drained hn h1 (by rw [client_abs (by rw [hc]; rfl), hc]; rfl)
  have hd : ∀ i, F.threads i = .done := by
    intro i
    have h4 := ht i
    rw [show t i = .done from h3.2.1 i] at h4
    exact tr_done h4
  refine ⟨h3.1, hd, ?_, h3.2.2.1, h3.2.2.2⟩
  rcases hx : F.mutex with _ | (_ | j)
  · rfl
  · have := h2.ok.mc.mpr hx
    rw [hc] at this
    cases this
  · have := (h2.ok.mt j).mpr hx
    rw [hd j] at this
    cases this

/-! ### No deadlock -/

/-- All work is done. -/
def SFinished (F : SState V K n) : Prop :=
  (F.client = .closed ∨ F.client = .failed ∨ F.client = .unsupported ∨ F.client = .idle ∧ F.d.todo = []) ∧
    F.mutex = none ∧ (F.d.started = true → F.d.cache = [] ∧ ∀ i, F.threads i = .wait) ∧
    (F.d.started = false → ∀ i, F.threads i = .done)

theorem thread_holder {F : SState V K n} {i : Fin n} (h : (F.threads i).holds = true) : F.threadStep i ≠ none := by
  unfold SState.threadStep
  cases hc : F.threads i with
  | test => simp only; split <;> simp
  | scan again k => simp only; split <;> simp
  | missing again => simp only; split <;> simp
  | skip => simp only; split <;> simp
  | found again b => simp
  | unlock b => simp
  | erase b => simp only; split <;> simp
  | notify => simp
  | _ => rw [hc] at h; cases h

theorem client_holder {F : SState V K p.threads} {junk : Nat → V} (h : F.client.holds = true) :
    F.clientStep p junk ≠ none := by
  unfold SState.clientStep
  cases hc : F.client with
  | storeMove k => simp
  | storeTest k item => simp only; split <;> simp
  | storeInsert k item => simp
  | storeNotify k => simp
  | storeUnlock k => simp
  | getTest row => simp only; split <;> simp
  | getUnlock row => simp
  | stopTest prep => simp only; split <;> (try split) <;> simp
  | stopLoop prep => simp only; split <;> simp
  | stopSet prep => simp
  | stopNotify prep => simp
  | stopUnlock prep => simp
  | _ => rw [hc] at h; cases h

theorem acquire_free {who : Option (Fin n)} {F G : SState V K n} (h : F.mutex = none) : F.acquire who G ≠ none := by
  unfold SState.acquire
  rw [h]
  simp

/-- Nobody can go on: then nobody can in `ColumnModel`. -/
theorem stuck_coarse {F : SState V K p.threads} {t : Fin p.threads → ThreadPC V} {junk : Nat → V} (h : OK p F) (ht : Thr F t)
    (hc : F.clientStep p junk = none) (hs : ∀ i, F.threadStep i = none) :
    F.mutex = none ∧ step p (F.abs t) (.client junk) = none ∧ ∀ i, step p (F.abs t) (.thread i) = none := by
  have hm : F.mutex = none := by
    rcases hx : F.mutex with _ | (_ | j)
    · rfl
    · exact absurd hc (client_holder (h.mc.mpr hx))
    · exact absurd (hs j) (thread_holder ((h.mt j).mpr hx))
  refine ⟨hm, ?_, fun i => ?_⟩
  · have ha : (F.abs t).client = F.client.abs := by
      change (if F.pendC then _ else _) = _
      rw [(pend_none hm).2]
      rfl
    change Col.clientStep p (F.abs t) junk = none
    unfold SState.clientStep at hc
    cases hcl : F.client with
    | idle =>
      rw [hcl] at hc ha
      have hd : F.d.todo = [] := by
        cases hd : F.d.todo with
        | nil => rfl
        | cons op rest => simp only [hd] at hc; cases hc
      have hd' : (F.abs t).todo = [] := hd
      unfold Col.clientStep
      rw [ha]
      simp only [CPC.abs, hd']
    | storeLock k =>
      rw [hcl] at hc
      simp only at hc
      split at hc
      · cases hc
      · exact absurd hc (acquire_free hm)
    | storeWoken k item => rw [hcl] at hc; exact absurd hc (acquire_free hm)
    | getLock row => rw [hcl] at hc; exact absurd hc (acquire_free hm)
    | getWoken row => rw [hcl] at hc; exact absurd hc (acquire_free hm)
    | stopLock prep => rw [hcl] at hc; exact absurd hc (acquire_free hm)
    | stopWoken prep => rw [hcl] at hc; exact absurd hc (acquire_free hm)
    | storeReset k => rw [hcl] at hc; cases hc
    | getAccess row => rw [hcl] at hc; cases hc
    | load k => rw [hcl] at hc; cases hc
    | prepStart => rw [hcl] at hc; cases hc
    | join prep =>
      rw [hcl] at hc ha
      have hd : ¬ ∀ i, ((F.abs t).threads i).isDone = true := by
        intro hd
        have hd' : ∀ i, (F.threads i).isDone = true := fun i => (tr_isDone (ht i)).mpr (hd i)
        cases prep <;> (simp only [hd', implies_true, if_true] at hc; cases hc)
      unfold Col.clientStep
      rw [ha]
      cases prep
      · simp only [CPC.abs, Bool.false_eq_true, if_false]
        rw [if_neg hd]
      · simp only [CPC.abs, if_true]
        rw [if_neg hd]
    | stopWait prep => rw [hcl] at ha; unfold Col.clientStep; rw [ha]; cases prep <;> rfl
    | storeWait k item => rw [hcl] at ha; unfold Col.clientStep; rw [ha]; rfl
    | getWait row => rw [hcl] at ha; unfold Col.clientStep; rw [ha]; rfl
    | closed => rw [hcl] at ha; unfold Col.clientStep; rw [ha]; rfl
    | failed => rw [hcl] at ha; unfold Col.clientStep; rw [ha]; rfl
    | unsupported => rw [hcl] at ha; unfold Col.clientStep; rw [ha]; rfl
    | _ =>
      have := h.mc.mp (by rw [hcl]; rfl)
      rw [hm] at this
      cases this
  · have h1 := ht i
    have h2 := hs i
    rw [(pend_none hm).1] at h1
    change Col.threadStep (F.abs t) i = none
    have hth : (F.abs t).threads i = t i := rfl
    unfold SState.threadStep at h2
    unfold Col.threadStep
    cases hcl : F.threads i with
    | lock => rw [hcl] at h2; exact absurd h2 (acquire_free hm)
    | woken => rw [hcl] at h2; exact absurd h2 (acquire_free hm)
    | relock b => rw [hcl] at h2; exact absurd h2 (acquire_free hm)
    | encode b =>
      rw [hcl] at h2
      simp only at h2
      split at h2 <;> cases h2
    | write b rows =>
      rw [hcl] at h2 h1
      simp only at h2
      split at h2
      · rename_i hk
        have hk' : (F.abs t).locked = true := hk
        rw [hth, show t i = .encode b rows from h1]
        simp only
        rw [if_pos hk']
      · cases h2
    | wait => rw [hcl] at h1; rw [hth, show t i = .wait from h1]
    | done => rw [hcl] at h1; rw [hth, show t i = .done from h1]
    | dangling => rw [hcl] at h1; exact h1.elim
    | _ =>
      have := (h.mt i).mp (by rw [hcl]; rfl)
      rw [hm] at this
      cases this

theorem finished_of_stuck {f : Nat → Option (Rows V)} (hn : 0 < p.threads) (hx : 1 ≤ p.maxCache) {F : SState V K p.threads}
    {t : Fin p.threads → ThreadPC V} {junk : Nat → V} (h : OK p F) (ht : Thr F t) (hI : Inv p f (F.abs t))
    (ha : NoAdd (F.abs t)) (hc : F.clientStep p junk = none) (hs : ∀ i, F.threadStep i = none) : SFinished F := by
  obtain ⟨hm, h1, h2⟩ := stuck_coarse h ht hc hs
  have h3 := no_deadlock_of_inv hn hx junk hI ha h1 h2
  have hca : (F.abs t).client = F.client.abs := by
    change (if F.pendC then _ else _) = _
    rw [(pend_none hm).2]
    rfl
  refine ⟨?_, hm, fun hb => ⟨(h3.2.1 hb).1, fun i => ?_⟩, fun hb i => ?_⟩
  · have h4 := h3.1
    rw [hca] at h4
    have hnr : ∀ k, F.client ≠ .storeReset k ∧ F.client ≠ .storeNotify k ∧ F.client ≠ .storeUnlock k := by
      intro k
      refine ⟨fun e => ?_, fun e => ?_, fun e => ?_⟩
      · unfold SState.clientStep at hc; rw [e] at hc; cases hc
      · unfold SState.clientStep at hc; rw [e] at hc; cases hc
      · unfold SState.clientStep at hc; rw [e] at hc; cases hc
    cases hcl : F.client with
    | closed => exact Or.inl rfl
    | failed => exact Or.inr (Or.inl rfl)
    | unsupported => exact Or.inr (Or.inr (Or.inl rfl))
    | idle =>
      rw [hcl] at h4
      rcases h4 with h4 | h4 | h4 | h4
      · cases h4
      · cases h4
      · cases h4
      · exact Or.inr (Or.inr (Or.inr ⟨rfl, h4.2⟩))
    | storeReset k => exact absurd hcl (hnr k).1
    | storeNotify k => exact absurd hcl (hnr k).2.1
    | storeUnlock k => exact absurd hcl (hnr k).2.2
    | stopLock prep => rw [hcl] at h4; cases prep <;> rcases h4 with h4 | h4 | h4 | ⟨h4, _⟩ <;> cases h4
    | stopTest prep => rw [hcl] at h4; cases prep <;> rcases h4 with h4 | h4 | h4 | ⟨h4, _⟩ <;> cases h4
    | stopLoop prep => rw [hcl] at h4; cases prep <;> rcases h4 with h4 | h4 | h4 | ⟨h4, _⟩ <;> cases h4
    | stopWait prep => rw [hcl] at h4; cases prep <;> rcases h4 with h4 | h4 | h4 | ⟨h4, _⟩ <;> cases h4
    | stopWoken prep => rw [hcl] at h4; cases prep <;> rcases h4 with h4 | h4 | h4 | ⟨h4, _⟩ <;> cases h4
    | stopSet prep => rw [hcl] at h4; cases prep <;> rcases h4 with h4 | h4 | h4 | ⟨h4, _⟩ <;> cases h4
    | stopNotify prep => rw [hcl] at h4; cases prep <;> rcases h4 with h4 | h4 | h4 | ⟨h4, _⟩ <;> cases h4
    | stopUnlock prep => rw [hcl] at h4; cases prep <;> rcases h4 with h4 | h4 | h4 | ⟨h4, _⟩ <;> cases h4
    | join prep => rw [hcl] at h4; cases prep <;> rcases h4 with h4 | h4 | h4 | ⟨h4, _⟩ <;> cases h4
    | _ => rw [hcl] at h4; rcases h4 with h4 | h4 | h4 | ⟨h4, _⟩ <;> cases h4
  · have h4 := (h3.2.1 hb).2 i
    have h5 := ht i
    rw [(pend_none hm).1, show t i = .wait from h4] at h5
    have h6 := hs i
    cases hcl : F.threads i with
    | wait => rfl
    | scan again k => rw [hcl] at h5; cases again <;> cases h5
    | missing again => rw [hcl] at h5; cases again <;> cases h5
    | found again k => rw [hcl] at h5; cases again <;> cases h5
    | unlock b => rw [hcl] at h5; obtain ⟨_, h5⟩ := h5; cases h5
    | encode b => rw [hcl] at h5; obtain ⟨_, h5⟩ := h5; cases h5
    | dangling => rw [hcl] at h5; exact h5.elim
    | _ => rw [hcl] at h5; cases h5
  · have h4 := h3.2.2 hb i
    have h5 := ht i
    rw [show t i = .done from h4] at h5
    exact tr_done h5

theorem noAdd_reach {k : K} {rows nBlocks : Nat} {file : Nat → Option (Rows V)} {todo : List (Op V)} {s : State V K p.threads}
    (ha : ∀ op ∈ todo, op.noAdd = true) (h : Reachable p (initial p k rows file nBlocks todo) s) : NoAdd s := by
  obtain ⟨ls, e⟩ := h
  exact run_induct (P := NoAdd) (fun s l s' hs he => noAdd_step hs he) (initial_noAdd ha) e

/-- In a program that adds no columns, whenever neither the client nor any thread can execute a statement, all work is
done. -/
theorem statements_no_deadlock (hn : 0 < p.threads) (hm : 1 ≤ p.maxCache) {k : K} {rows nBlocks : Nat}
    {file : Nat → Option (Rows V)} {todo : List (Op V)} {ls : List (Label V p.threads)} {F : SState V K p.threads}
    (ha : ∀ op ∈ todo, op.noAdd = true) (e : srun p (sinitial p k rows file nBlocks todo) ls = some F) (junk : Nat → V)
    (hc : sstep p F (.client junk) = none) (ht : ∀ i, sstep p F (.thread i) = none) : SFinished F := by
  obtain ⟨s, h1, h2⟩ := rel_reach hn e
  obtain ⟨t, ht', rfl⟩ := h2.abs
  exact finished_of_stuck hn hm h2.ok ht' h2.inv (noAdd_reach ha h1) hc ht

/-! ### Termination -/

/-- A bound for the number of statements that a section with the mutex, and what comes before it, takes. -/
def perStep (p : Params V K) : Nat := p.threads * (p.maxCache + 5) + 6

/-- What remains to be done. -/
def smeasure (p : Params V K) (F : SState V K p.threads) (s : State V K p.threads) : Nat :=
  work s * (perStep p + 1) + F.rank p.maxCache

theorem measure_step {f : Nat → Option (Rows V)} (hn : 0 < p.threads) {F F' : SState V K p.threads} {s : State V K p.threads}
    (h : Rel p f F s) {l : Label V p.threads} (e : sstep p F l = some F') :
    ∃ s', Rel p f F' s' ∧ (s' = s ∨ step p s l = some s') ∧
      smeasure p F' s' + (if l.real then 1 else 0) ≤ smeasure p F s + (if l.spurious then perStep p + 1 else 0) := by
  obtain ⟨s', hr, h1⟩ := rel_step hn h e
  refine ⟨s', hr, ?_, ?_⟩
  · rcases h1 with ⟨h1, _⟩ | h1
    · exact Or.inl h1
    · exact Or.inr h1
  rcases h1 with ⟨rfl, h1⟩ | h1
  · unfold smeasure
    omega
  · have h4 := step_work h1
    have h5 := rank_le p.maxCache F'
    cases hl : l.real with
    | true =>
      have hsp : l.spurious = false := by cases l <;> first | rfl | cases hl
      rw [hl, hsp] at h4
      simp only [if_true, Bool.false_eq_true, if_false] at h4
      have h6 : (work s' + 1) * (perStep p + 1) ≤ work s * (perStep p + 1) := Nat.mul_le_mul_right _ h4
      have h7 : (work s' + 1) * (perStep p + 1) = work s' * (perStep p + 1) + (perStep p + 1) := Nat.succ_mul _ _
      simp only [if_true, hsp, Bool.false_eq_true, if_false, smeasure]
      unfold perStep at h6 h7 ⊢
      omega
    | false =>
      obtain ⟨t, ht, rfl⟩ := h.abs
      have h6 := (sim_env h.ok ht hl e).2.2
      rw [hl] at h4
      simp only [Bool.false_eq_true, if_false, smeasure, h6] at h4 ⊢
      split at h4
      · rename_i hsp
        rw [if_pos hsp]
        have h7 := Nat.mul_le_mul_right (perStep p + 1) h4
        have h8 : (work (F.abs t) + 1) * (perStep p + 1) = work (F.abs t) * (perStep p + 1) + (perStep p + 1) := Nat.succ_mul _ _
        simp only [Nat.add_zero] at h7
        omega
      · rename_i hsp
        rw [if_neg hsp]
        have h7 := Nat.mul_le_mul_right (perStep p + 1) h4
        simp only [Nat.add_zero] at h7
        omega

theorem measure_run {f : Nat → Option (Rows V)} (hn : 0 < p.threads) {F F' : SState V K p.threads} {s : State V K p.threads}
    (h : Rel p f F s) {ls : List (Label V p.threads)} (e : srun p F ls = some F') :
    ls.countP (·.real) ≤ smeasure p F s + ls.countP (·.spurious) * (perStep p + 1) := by
  induction ls generalizing F s with
  | nil => simp
  | cons l ls ih =>
    simp only [srun] at e
    cases h1 : sstep p F l with
    | none => rw [h1] at e; cases e
    | some F1 =>
      rw [h1] at e
      obtain ⟨s1, hr, _, h2⟩ := measure_step hn h h1
      have h3 := ih hr e
      rw [List.countP_cons, List.countP_cons, Nat.add_mul]
      cases hl : l.real <;> cases hs : l.spurious <;>
        simp only [hl, hs, if_true, Bool.false_eq_true, if_false] at h2 ⊢ <;> omega

/-- Along every schedule, the number of statements that the client and the threads execute is bounded. -/
theorem statements_bounded (hn : 0 < p.threads) {k : K} {rows nBlocks : Nat} {file : Nat → Option (Rows V)}
    {todo : List (Op V)} {ls : List (Label V p.threads)} {F : SState V K p.threads}
    (e : srun p (sinitial p k rows file nBlocks todo) ls = some F) :
    ls.countP (·.real) ≤
      (work (initial p k rows file nBlocks todo) + 1 + ls.countP (·.spurious)) * (p.threads * (p.maxCache + 5) + 7) := by
  have h1 := measure_run hn (rel_initial hn k rows file nBlocks todo) e
  have h2 := rank_le p.maxCache (sinitial p k rows file nBlocks todo)
  rw [Nat.add_mul, Nat.add_mul]
  unfold smeasure perStep at h1
  rw [show p.threads * (p.maxCache + 5) + 6 + 1 = p.threads * (p.maxCache + 5) + 7 from rfl] at h1
  omega

/-- From every reachable state of a program that adds no columns, statements of the client and the threads alone lead to
a state in which all work is done. -/
theorem statements_finish (hn : 0 < p.threads) (hm : 1 ≤ p.maxCache) {k : K} {rows nBlocks : Nat}
    {file : Nat → Option (Rows V)} {todo : List (Op V)} {ls : List (Label V p.threads)} {F : SState V K p.threads}
    (ha : ∀ op ∈ todo, op.noAdd = true) (e : srun p (sinitial p k rows file nBlocks todo) ls = some F) (junk : Nat → V) :
    ∃ ls' F', (∀ l ∈ ls', Label.real l = true) ∧ srun p F ls' = some F' ∧ SFinished F' := by
  obtain ⟨s, h1, hr⟩ := rel_reach hn e
  have hna := noAdd_reach ha h1
  clear h1 e
  induction hw : smeasure p F s using Nat.strong_induction_on generalizing F s with
  | _ w ih =>
    have go : ∀ l F1, Label.real l = true → sstep p F l = some F1 →
        ∃ ls' F', (∀ l ∈ ls', Label.real l = true) ∧ srun p F ls' = some F' ∧ SFinished F' := by
      intro l F1 hl h1
      obtain ⟨s1, hr1, h2, h3⟩ := measure_step hn hr h1
      have hsp : l.spurious = false := by cases l <;> first | rfl | cases hl
      rw [hl, hsp] at h3
      simp only [if_true, Bool.false_eq_true, if_false] at h3
      have hna1 : NoAdd s1 := by
        rcases h2 with rfl | h2
        · exact hna
        · exact noAdd_step hna h2
      obtain ⟨ls', F', h4, h5, h6⟩ := ih _ (by omega) s1 hr1 hna1 rfl
      refine ⟨l :: ls', F', ?_, ?_, h6⟩
      · intro l' hl'
        rcases List.mem_cons.mp hl' with rfl | hl'
        · exact hl
        · exact h4 l' hl'
      · simp only [srun, h1]
        exact h5
    cases hc : sstep p F (.client junk) with
    | some F1 => exact go _ F1 rfl hc
    | none =>
      by_cases ht : ∃ i, sstep p F (.thread i) ≠ none
      · obtain ⟨i, hi⟩ := ht
        obtain ⟨F1, h1⟩ := Option.ne_none_iff_exists'.mp hi
        exact go _ F1 rfl h1
      · push Not at ht
        obtain ⟨t, ht', rfl⟩ := hr.abs
        exact ⟨[], F, by simp, rfl, finished_of_stuck hn hm hr.ok ht' hr.inv hna hc ht⟩

/-! ## Examples -/

/-- Two encoder threads, one item in the cache, two rows in a block. -/
def two : Params Nat Nat where
  threads := 2
  maxCache := 1
  key := fun r => r / 2
  differs := fun a b => a != b
  dec := fun _ _ => id

/-- Numbers for the steps of a schedule. Not in the code. -/
def label : Nat → Label Nat 2
  | 0 => .client fun _ => 0
  | 1 => .thread 0
  | 2 => .thread 1
  | 3 => .spuriousThread 1
  | _ => .spuriousClient

/-- The operations of the example. Not in the code. -/
def program : List (Op Nat) := [.put 0 20, .put 1 21, .put 2 22, .put 3 23, .put 4 24, .get 0, .close]

/-- The state before the schedule. Not in the code. -/
def start : SState Nat Nat 2 := sinitial two 0 0 (fun _ => none) 0 program

/-- A schedule in which each section with the mutex is executed piece by piece where the others can go on. -/
def schedule : List Nat :=
  [0, 0, 0, 1, 1, 1, 1, 2, 2, 2, 2, 0, 0, 0, 0, 0, 0, 1, 0, 1, 0, 1, 0, 1, 2, 0, 1, 2, 1, 2, 2, 0, 0, 0, 1, 1, 1, 1, 1, 1,
   2, 2, 2, 0, 0, 0, 0, 0, 1, 0, 1, 0, 1, 0, 1, 2, 1, 2, 1, 2, 2, 0, 0, 0, 1, 0, 1, 1, 1, 1, 1, 2, 2, 2, 0, 0, 0, 0, 0, 0,
   1, 0, 1, 0, 1, 0, 1, 2, 1, 2, 1, 2, 2, 0, 0, 0, 1, 1, 1, 1, 1, 1, 2, 2, 2, 0, 0, 0, 0, 0, 1, 1, 1, 1, 2, 2, 2, 2, 0]

/-- The hypotheses of the theorems hold, with `F.client = .closed` at the end. -/
example : (srun two start (schedule.map label)).map (fun F =>
      ((match F.client with | .closed => true | _ => false),
        F.d.writes.map fun x => (x.1, (List.range x.2.len).map x.2.get))) =
    some (true, [(0, [some 20, some 21]), (1, [some 22, some 23]), (2, [some 24])]) := by decide +kernel

/-- A thread has been interrupted while it has the mutex, and the client has to wait for it in `storeBlock`. -/
example : (srun two start (([0, 0, 0, 1]).map label)).map (fun F =>
      ((match F.client with | .storeLock _ => true | _ => false), F.mutex.isSome, (sstep two F (label 0)).isSome,
        (sstep two F (label 2)).isSome, (sstep two F (label 1)).isSome)) =
    some (true, true, false, false, true) := by decide +kernel

/-- A wake-up without notification. -/
example : (srun two start (([0, 0, 0, 2, 2, 2, 2, 3, 2, 2, 2]).map label)).map (fun F =>
      (match F.threads (1 : Fin 2) with | .wait => true | _ => false)) = some true := by decide +kernel

example : 0 < two.threads ∧ 1 ≤ two.maxCache ∧ ∀ op ∈ program, op.noAdd = true := by
  refine ⟨by decide, by decide, ?_⟩
  intro op h
  simp only [program, List.mem_cons, List.not_mem_nil, or_false] at h
  rcases h with rfl | rfl | rfl | rfl | rfl | rfl | rfl <;> rfl

end Dysco.Stmt
