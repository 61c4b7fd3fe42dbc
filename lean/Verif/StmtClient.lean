import Verif.StmtSim

/-! # The statements of the client -/

namespace Dysco.Stmt
open Col
variable {V K : Type} {n : Nat} {p : Params V K}

theorem tr_wake {pc : TPC V} {c : ThreadPC V} (h : TR false pc c) : TR true pc c.wake := by
  revert h
  cases pc with
  | wait => intro h; rw [show c = .wait from h]; rfl
  | scan again k => cases again <;> (intro h; rw [show c = _ from h]; rfl)
  | missing again => cases again <;> (intro h; rw [show c = _ from h]; rfl)
  | found again k => cases again <;> (intro h; rw [show c = _ from h]; rfl)
  | unlock b => rintro ⟨r, rfl⟩; exact ⟨r, rfl⟩
  | encode b => rintro ⟨r, rfl⟩; exact ⟨r, rfl⟩
  | dangling => exact fun h => h
  | _ => intro h; rw [show c = _ from h]; rfl

theorem tr_woke {pc : TPC V} {c : ThreadPC V} (h : TR true pc c) : TR false pc.wake c := by
  revert h
  cases pc with
  | scan again k => cases again <;> exact fun h => h
  | missing again => cases again <;> exact fun h => h
  | found again k => cases again <;> exact fun h => h
  | _ => exact fun h => h

/-- The client waits. -/
def CPC.waits : CPC V → Bool
  | .storeWait _ _ | .getWait _ | .stopWait _ => true
  | _ => false

/-- The client waits for the condition. Not in the code. -/
def waitsC : ClientPC V → Bool
  | .storeWait _ | .getWait _ | .stopWait | .prepWait => true
  | _ => false

theorem abs_wake {pc : CPC V} (h : pc.waits = false) : pc.abs.wake = pc.abs := by
  cases pc with
  | storeWait k item => cases h
  | getWait row => cases h
  | stopWait prep => cases h
  | storeNotify k => cases k <;> rfl
  | storeUnlock k => cases k <;> rfl
  | storeReset k => cases k <;> rfl
  | stopLock prep => cases prep <;> rfl
  | stopTest prep => cases prep <;> rfl
  | stopLoop prep => cases prep <;> rfl
  | stopWoken prep => cases prep <;> rfl
  | stopSet prep => cases prep <;> rfl
  | stopNotify prep => cases prep <;> rfl
  | stopUnlock prep => cases prep <;> rfl
  | join prep => cases prep <;> rfl
  | _ => rfl

theorem at_abs (pc : ClientPC V) : (CPC.at pc).abs = pc := by cases pc <;> rfl

theorem at_free (pc : ClientPC V) : (CPC.at pc).holds = false := by cases pc <;> rfl

theorem at_notify (pc : ClientPC V) : (CPC.at pc).isNotify = false := by cases pc <;> rfl

theorem at_plain {pc : ClientPC V} (h : waitsC pc = false) :
    (CPC.at pc).waits = false ∧ (∀ b, (CPC.at pc).buf b = b) ∧ (∀ c, (CPC.at pc).chg c = c) ∧
    ∀ d : State V K n, COK p d (CPC.at pc) := by
  cases pc <;> first
    | exact ⟨rfl, fun _ => rfl, fun _ => rfl, fun _ => trivial⟩
    | cases h

theorem client_abs {F : SState V K n} {t : Fin n → ThreadPC V} (h : F.client.waits = false) :
    (F.abs t).client = F.client.abs := by
  change (if F.pendC then F.client.abs.wake else F.client.abs) = _
  rw [abs_wake h, ite_self]

theorem access_threads (s : State V K n) (k : Next V) (t : Fin n → ThreadPC V) :
    State.access { s with threads := t } k = { s.access k with threads := t } := by
  unfold State.access
  by_cases h1 : k.row / s.rowsPerBlock ≠ s.current
  · cases h2 : s.changed <;> simp [h1]
  · rw [if_neg h1]
    have h1' : ¬ k.row / ({ s with threads := t } : State V K n).rowsPerBlock ≠ ({ s with threads := t } : State V K n).current := h1
    rw [if_neg h1']
    cases k <;> rfl

theorem access_client (s : State V K n) (k : Next V) (pc : ClientPC V) :
    State.access { s with client := pc } k = s.access k := by
  unfold State.access
  by_cases h1 : k.row / s.rowsPerBlock ≠ s.current
  · cases h2 : s.changed <;> simp [h1]
  · rw [if_neg h1]
    have h1' : ¬ k.row / ({ s with client := pc } : State V K n).rowsPerBlock ≠ ({ s with client := pc } : State V K n).current := h1
    rw [if_neg h1']
    cases k <;> rfl

theorem access_waits (s : State V K n) (k : Next V) : waitsC (s.access k).client = false := by
  unfold State.access
  split
  · split <;> rfl
  · cases k <;> rfl

theorem call_threads (s : State V K n) (op : Op V) (t : Fin n → ThreadPC V) :
    State.call p { s with threads := t } op =
      { State.call p s op with threads := if starts p s op then fun _ => .head else t } := by
  cases op with
  | put row v =>
    by_cases h1 : s.rowsPerBlock = 0
    · by_cases h2 : s.buffer.len = 0
      · simp [State.call, State.put, starts, h1, h2]
      · by_cases h3 : p.differs (p.key row) s.last = true
        · by_cases h4 : row = 0
          · subst h4
            simp [State.call, State.put, starts, h1, h2, h3]
          · by_cases h5 : s.cache = []
            · have h6 : starts p s (.put row v) = true := by simp [starts, h1, h2, h3, h4, h5]
              rw [h6]
              have a : ∀ s : State V K n, s.rowsPerBlock = 0 → s.buffer.len ≠ 0 → p.differs (p.key row) s.last = true →
                  s.cache = [] → State.call p s (.put row v) = ({ s with rowsPerBlock := row }.start).access (.put row v) := by
                intro s h1 h2 h3 h5
                simp [State.call, State.put, h1, h2, h3, h4, h5]
              rw [a _ h1 h2 h3 h5, a { s with threads := t } h1 h2 h3 h5]
              rw [← access_threads]
              rfl
            · simp [State.call, State.put, starts, h1, h2, h3, h4, h5]
        · simp [State.call, State.put, starts, h1, h2, h3]
    · have h6 : starts p s (.put row v) = false := by simp [starts, h1]
      rw [h6]
      have a : ∀ s : State V K n, s.rowsPerBlock ≠ 0 → State.call p s (.put row v) = s.access (.put row v) := by
        intro s h1
        simp [State.call, State.put, h1]
      rw [a _ h1, a { s with threads := t } h1, access_threads]
      rfl
  | get row =>
    by_cases h1 : s.rowsPerBlock = 0
    · simp [State.call, State.get, starts, h1]
    · by_cases h2 : s.nBlocks ≤ row / s.rowsPerBlock
      · simp [State.call, State.get, starts, h1, h2]
      · simp [State.call, State.get, starts, h1, h2]
  | close => cases h : s.changed <;> simp [State.call, starts, h]
  | addColumn => by_cases h : s.nBlocks = 0 <;> simp [State.call, starts, h]
  | otherInit rows =>
    by_cases h1 : s.rowsPerBlock = 0
    · by_cases h2 : rows = 0
      · simp [State.call, starts, h1, h2]
      · by_cases h3 : s.cache = []
        · simp [State.call, starts, h1, h2, h3, State.start]
        · simp [State.call, starts, h1, h2, h3]
    · simp [State.call, starts, h1]

theorem call_waits (s : State V K n) (op : Op V) (h : s.client = .idle) : waitsC (State.call p s op).client = false := by
  have hi : waitsC s.client = false := by rw [h]; rfl
  cases op with
  | put row v =>
    simp only [State.call, State.put]
    split
    · exact access_waits _ _
    · split
      · exact hi
      · split
        · split
          · rfl
          · split
            · rfl
            · exact access_waits _ _
        · exact hi
  | get row =>
    simp only [State.call, State.get]
    split
    · exact hi
    · split
      · exact hi
      · rfl
  | close => simp only [State.call]; split <;> rfl
  | addColumn =>
    simp only [State.call]
    split
    · exact hi
    · rfl
  | otherInit rows =>
    simp only [State.call]
    split
    · exact hi
    · split
      · rfl
      · split
        · rfl
        · exact hi

theorem access_vars (s : State V K n) (k : Next V) : (s.access k).cache = s.cache ∧ (s.access k).stop = s.stop := by
  unfold State.access
  split
  · split <;> exact ⟨rfl, rfl⟩
  · cases k <;> exact ⟨rfl, rfl⟩

theorem call_vars (s : State V K n) (op : Op V) :
    (State.call p s op).cache = s.cache ∧ (starts p s op = false → (State.call p s op).stop = s.stop) := by
  cases op with
  | put row v =>
    simp only [State.call, State.put]
    split
    · exact ⟨(access_vars _ _).1, fun _ => (access_vars _ _).2⟩
    · rename_i h1
      split
      · exact ⟨rfl, fun _ => rfl⟩
      · rename_i h2
        split
        · rename_i h3
          split
          · exact ⟨rfl, fun _ => rfl⟩
          · rename_i h4
            split
            · exact ⟨rfl, fun _ => rfl⟩
            · rename_i h5
              refine ⟨(access_vars _ _).1, fun h => ?_⟩
              have h1' : s.rowsPerBlock = 0 := by simpa using h1
              have h5' : s.cache = [] := by simpa using h5
              simp [starts, h1', h2, h3, h4, h5'] at h
        · exact ⟨rfl, fun _ => rfl⟩
  | get row =>
    simp only [State.call, State.get]
    split
    · exact ⟨rfl, fun _ => rfl⟩
    · split <;> exact ⟨rfl, fun _ => rfl⟩
  | close => simp only [State.call]; split <;> exact ⟨rfl, fun _ => rfl⟩
  | addColumn => simp only [State.call]; split <;> exact ⟨rfl, fun _ => rfl⟩
  | otherInit rows =>
    simp only [State.call]
    split
    · exact ⟨rfl, fun _ => rfl⟩
    · rename_i h1
      split
      · exact ⟨rfl, fun _ => rfl⟩
      · rename_i h2
        split
        · exact ⟨rfl, fun _ => rfl⟩
        · rename_i h3
          refine ⟨rfl, fun h => ?_⟩
          have h1' : s.rowsPerBlock = 0 := by simpa using h1
          have h3' : s.cache = [] := by simpa using h3
          simp [starts, h1', h2, h3'] at h

theorem starts_rows {s : State V K n} {op : Op V} (h : starts p s op = true) : s.rowsPerBlock = 0 := by
  cases op with
  | put row v => simp only [starts, Bool.and_eq_true, beq_iff_eq] at h; exact h.1.1.1.1
  | otherInit rows => simp only [starts, Bool.and_eq_true, beq_iff_eq] at h; exact h.1.1
  | get row => cases h
  | close => cases h
  | addColumn => cases h

section client
variable {F F' : SState V K p.threads} {t : Fin p.threads → ThreadPC V} {pc : CPC V} {d : State V K p.threads}
  {m : Option (Option (Fin p.threads))} {junk : Nat → V} {f : Nat → Option (Rows V)}

/-- How a statement of the client changes the mutex. -/
def Moves (F : SState V K p.threads) (pc : CPC V) (m : Option (Option (Fin p.threads))) : Prop :=
  m = F.mutex ∧ pc.holds = F.client.holds ∨
    F.mutex = none ∧ m = some none ∧ pc.holds = true ∨
    F.mutex = some none ∧ m = none ∧ pc.holds = false

theorem cpend_move (hm : Moves F pc m) (h1 : F.client.isNotify = false) (h2 : pc.isNotify = false)
    (e : F' = { F with d := d, client := pc, mutex := m }) : F'.pend = F.pend ∧ F'.pendC = F.pendC := by
  rcases hm with ⟨hm, hh⟩ | ⟨h0, hm, hh⟩ | ⟨h0, hm, hh⟩
  · rcases h6 : F.mutex with _ | (_ | j)
    · rw [(pend_none h6).1, (pend_none h6).2]
      exact pend_none (by rw [e, ← h6]; exact hm)
    · have h7 := pend_client (F := F') (by rw [e, ← h6]; exact hm)
      rw [(pend_client h6).1, (pend_client h6).2, h7.1, h7.2, h1, e]
      exact ⟨h2, rfl⟩
    · have h7 := pend_thread (F := F') (i := j) (by rw [e, ← h6]; exact hm)
      rw [(pend_thread h6).1, (pend_thread h6).2, h7.1, h7.2, e]
      exact ⟨rfl, rfl⟩
  · have h7 := pend_client (F := F') (by rw [e]; exact hm)
    rw [(pend_none h0).1, (pend_none h0).2, h7.1, h7.2, e]
    exact ⟨h2, rfl⟩
  · rw [(pend_client h0).1, (pend_client h0).2, h1]
    exact pend_none (by rw [e]; exact hm)

theorem cok_move (h : OK p F) (hm : Moves F pc m) (hv : d.cache = F.d.cache ∧ d.stop = F.d.stop) (hcok : COK p d pc)
    (e : F' = { F with d := d, client := pc, mutex := m }) : OK p F' := by
  subst e
  refine ⟨fun j => ?_, ?_, fun j => ?_, hcok⟩
  · change (F.threads j).holds = true ↔ m = some (some j)
    rw [h.mt j]
    rcases hm with ⟨hm, hh⟩ | ⟨h0, hm, hh⟩ | ⟨h0, hm, hh⟩
    · rw [hm]
    · rw [h0, hm]; simp
    · rw [h0, hm]; simp
  · change pc.holds = true ↔ m = some none
    rcases hm with ⟨hm, hh⟩ | ⟨h0, hm, hh⟩ | ⟨h0, hm, hh⟩
    · rw [hm, hh]; exact h.mc
    · rw [hm, hh]; simp
    · rw [hm, hh]; simp
  · change TOK d.cache d.stop (F.threads j)
    rw [hv.1, hv.2]
    exact h.tok j

theorem cquiet (h : OK p F) (ht : Thr F t) (hm : Moves F pc m) (h1 : F.client.isNotify = false) (h2 : pc.isNotify = false)
    (hv : d.cache = F.d.cache ∧ d.stop = F.d.stop) (hcok : COK p d pc)
    (habs : ∀ q : Bool, ({ d with
        client := if q then pc.abs.wake else pc.abs
        threads := t
        buffer := pc.buf d.buffer
        changed := pc.chg d.changed } : State V K p.threads) = { F.d with
        client := if q then F.client.abs.wake else F.client.abs
        threads := t
        buffer := F.client.buf F.d.buffer
        changed := F.client.chg F.d.changed })
    (hr : pc.rank < F.client.rank) (e : F' = { F with d := d, client := pc, mutex := m }) :
    OK p F' ∧ Sim p F F' t (.client junk) := by
  have hp := cpend_move hm h1 h2 e
  refine ⟨cok_move h hm hv hcok e, Or.inl ⟨?_, ?_, ?_⟩⟩
  · subst e
    unfold SState.abs
    rw [hp.2]
    exact habs _
  · intro j
    rw [hp.1, e]
    exact ht j
  · subst e
    simp only [Label.real, if_true, SState.rank]
    omega

theorem cmoved (h : OK p F) (ht : Thr F t) (hm : Moves F pc m) (h1 : F.client.isNotify = false) (h2 : pc.isNotify = false)
    (hv : d.cache = F.d.cache ∧ d.stop = F.d.stop) (hcok : COK p d pc)
    (e : F' = { F with d := d, client := pc, mutex := m })
    (hs : F'.pendC = F.pendC → Col.clientStep p (F.abs t) junk = some (F'.abs t)) :
    OK p F' ∧ Sim p F F' t (.client junk) := by
  have hp := cpend_move hm h1 h2 e
  refine ⟨cok_move h hm hv hcok e, Or.inr ⟨t, hs hp.2, ?_⟩⟩
  intro j
  rw [hp.1, e]
  exact ht j

/-- The client changes the cache or the flag, and will notify. -/
theorem cset (h : OK p F) (ht : Thr F t) (hm : F.mutex = some none) (h1 : F.client.isNotify = false) (h2 : pc.isNotify = true)
    (hh : pc.holds = true) (hcok : COK p d pc) (e : F' = { F with d := d, client := pc })
    (hs : F.pendC = false → F'.pendC = false →
      Col.clientStep p (F.abs t) junk = some (F'.abs fun j => (t j).wake)) :
    OK p F' ∧ Sim p F F' t (.client junk) := by
  have hm' : F'.mutex = some none := by rw [e]; exact hm
  have hp := pend_client hm
  have hp' := pend_client hm'
  refine ⟨⟨fun j => ?_, ?_, fun j => ?_, ?_⟩, Or.inr ⟨_, hs hp.2 hp'.2, ?_⟩⟩
  · rw [e]; exact h.mt j
  · rw [e]; exact ⟨fun _ => hm, fun _ => hh⟩
  · refine tok_free ?_
    cases e1 : (F'.threads j).holds with
    | false => rfl
    | true =>
      rw [e] at e1
      have := (h.mt j).mp e1
      rw [hm] at this
      cases this
  · rw [e]; exact hcok
  · intro j
    have h3 := ht j
    rw [hp.1, h1] at h3
    rw [hp'.1, e]
    simp only [h2]
    exact tr_wake h3

/-- `notify_all` by the client. -/
theorem cnotify (h : OK p F) (ht : Thr F t) (hm : F.mutex = some none) (h1 : F.client.isNotify = true) (h2 : pc.isNotify = false)
    (hh : pc.holds = true) (hcok : COK p F.d pc)
    (habs : pc.abs = F.client.abs ∧ pc.buf F.d.buffer = F.client.buf F.d.buffer ∧
      pc.chg F.d.changed = F.client.chg F.d.changed)
    (hr : pc.rank < F.client.rank) (e : F' = { F with threads := fun i => (F.threads i).wake, client := pc }) :
    OK p F' ∧ Sim p F F' t (.client junk) := by
  have hm' : F'.mutex = some none := by rw [e]; exact hm
  have hp := pend_client hm
  have hp' := pend_client hm'
  have hw : ∀ pc : TPC V, pc.wake.holds = pc.holds := by intro pc; cases pc <;> rfl
  refine ⟨⟨fun j => ?_, ?_, fun j => ?_, ?_⟩, Or.inl ⟨?_, ?_, ?_⟩⟩
  · rw [e]
    change (F.threads j).wake.holds = true ↔ F.mutex = some (some j)
    rw [hw]
    exact h.mt j
  · rw [e]; exact ⟨fun _ => hm, fun _ => hh⟩
  · rw [e]
    change TOK F.d.cache F.d.stop (F.threads j).wake
    have h3 := h.tok j
    cases hc : F.threads j <;> rw [hc] at h3 <;> exact h3
  · rw [e]; exact hcok
  · subst e
    unfold SState.abs
    rw [hp.2, hp'.2]
    simp only [habs.1, habs.2.1, habs.2.2]
  · intro j
    have h3 := ht j
    rw [hp.1, h1] at h3
    rw [hp'.1, e]
    simp only [h2]
    exact tr_woke h3
  · subst e
    simp only [Label.real, if_true, SState.rank, rank_wake]
    omega

theorem tr_done {q : Bool} {pc : TPC V} (h : TR q pc .done) : pc = .done := by
  cases pc with
  | done => rfl
  | wait => cases q <;> cases h
  | scan again k => cases again <;> cases h
  | missing again => cases again <;> cases h
  | found again k => cases again <;> cases h
  | unlock b => obtain ⟨r, h⟩ := h; cases h
  | encode b => obtain ⟨r, h⟩ := h; cases h
  | dangling => exact h.elim
  | _ => cases h

theorem tr_isDone {q : Bool} {pc : TPC V} {c : ThreadPC V} (h : TR q pc c) : pc.isDone = true ↔ c.isDone = true := by
  constructor
  · intro hd
    cases pc <;> first | (cases hd; done) | (rw [show c = .done from h]; rfl)
  · intro hd
    cases c <;> first | (cases hd; done) | (rw [tr_done h]; rfl)

/-- The client starts the threads. -/
theorem cstart (hm : F.mutex = none) (hh : pc.holds = false)
    (hcok : COK p d pc) (e : F' = { F with d := d, client := pc, threads := fun _ => .lock })
    (hs : F.pendC = false → F'.pendC = false → Col.clientStep p (F.abs t) junk = some (F'.abs fun _ => .head)) :
    OK p F' ∧ Sim p F F' t (.client junk) := by
  have hm' : F'.mutex = none := by rw [e]; exact hm
  refine ⟨⟨fun j => ?_, ?_, fun j => ?_, ?_⟩,
    Or.inr ⟨_, hs (pend_none hm).2 (pend_none hm').2, fun j => ?_⟩⟩
  · rw [hm', e]; exact ⟨fun h => (by cases h), fun h => (by cases h)⟩
  · rw [hm', e]; exact ⟨fun h => (by simp [hh] at h), fun h => (by cases h)⟩
  · rw [e]; trivial
  · rw [e]; exact hcok
  · rw [e]; rfl

theorem acquire_some {who : Option (Fin n)} {F G F' : SState V K n} (e : F.acquire who G = some F') :
    F.mutex = none ∧ F' = { G with mutex := some who } := by
  unfold SState.acquire at e
  split at e
  · rename_i h
    cases e
    exact ⟨h, rfl⟩
  · cases e

theorem idle_step {s : State V K p.threads} {op : Op V} {rest : List (Op V)} (h : s.client = .idle) (h2 : s.todo = op :: rest) :
    Col.clientStep p s junk = some (State.call p { s with todo := rest } op) := by
  cases s
  subst h h2
  rfl

theorem sim_client (h : OK p F) (ht : Thr F t) (hI : Core p f (F.abs t))
    (hoff : F.d.rowsPerBlock = 0 → F.d.started = false) (e : F.clientStep p junk = some F') :
    OK p F' ∧ Sim p F F' t (.client junk) := by
  have hmc := h.mc
  have hcok := h.cok
  have hca : F.client.waits = false → (F.abs t).client = F.client.abs := client_abs
  cases hcl : F.client with
  | idle =>
    rw [hcl] at hmc hca
    have hca := hca rfl
    unfold SState.clientStep at e
    rw [hcl] at e
    change (match F.d.todo with
      | [] => none
      | op :: rest => some _) = some F' at e
    split at e
    · cases e
    rename_i op rest htodo
    have hw := call_waits (p := p) { F.d with todo := rest, client := .idle } op rfl
    have hpl := at_plain (p := p) (n := p.threads) (K := K) hw
    have hstep : ∀ t' : Fin p.threads → ThreadPC V, t' = (if starts p F.d op then fun _ => .head else t) →
        Col.clientStep p (F.abs t) junk =
          some { State.call p { F.d with todo := rest, client := .idle } op with threads := t' } := by
      intro t' ht'
      have h1 := call_threads (p := p) { F.d with todo := rest, client := .idle } op t
      rw [idle_step hca (show (F.abs t).todo = op :: rest from htodo), ht']
      change _ = some { State.call p { F.d with todo := rest, client := .idle } op with
        threads := if starts p { F.d with todo := rest, client := .idle } op then fun _ => .head else t }
      rw [← h1]
      have h3 : ({ F.abs t with todo := rest } : State V K p.threads) =
          { F.d with todo := rest, client := .idle, threads := t } := by
        unfold SState.abs
        rw [hcl]
        simp only [CPC.abs, CPC.buf, CPC.chg, ClientPC.wake, ite_self]
      rw [h3]
    have hfin : ∀ (G : SState V K p.threads) (t' : Fin p.threads → ThreadPC V),
        G.d = State.call p { F.d with todo := rest, client := .idle } op → G.client = CPC.at G.d.client →
        G.abs t' = { State.call p { F.d with todo := rest, client := .idle } op with threads := t' } := by
      intro G t' h1 h2
      rw [← h1] at hpl ⊢
      unfold SState.abs
      rw [h2, hpl.2.1, hpl.2.2.1, abs_wake hpl.1, at_abs, ite_self]
    cases hst : starts p F.d op with
    | false =>
      rw [hst] at e hstep
      cases e
      refine cmoved (pc := CPC.at (State.call p { F.d with todo := rest, client := .idle } op).client)
        (d := State.call p { F.d with todo := rest, client := .idle } op) (m := F.mutex) h ht (Or.inl ⟨rfl, ?_⟩) (by rw [hcl]; rfl) (at_notify _)
        ⟨(call_vars _ _).1, (call_vars _ _).2 hst⟩ (hpl.2.2.2 _) rfl ?_
      · rw [at_free, hcl]; rfl
      · intro _
        rw [hstep t rfl, hfin _ t rfl rfl]
    | true =>
      rw [hst] at e hstep
      cases e
      have hr : (F.abs t).rowsPerBlock = 0 := starts_rows (s := F.d) hst
      have hd := hI.idle (hoff hr)
      have hd' : ∀ j, F.threads j = .done := by
        intro j
        have h1 := ht j
        rw [show t j = .done from hd j] at h1
        exact tr_done h1
      have hm : F.mutex = none := by
        rcases hx : F.mutex with _ | (_ | j)
        · rfl
        · rw [hx] at hmc; cases hmc.mpr rfl
        · have := (h.mt j).mpr hx
          rw [hd' j] at this
          cases this
      refine cstart (pc := CPC.at (State.call p { F.d with todo := rest, client := .idle } op).client)
        (d := State.call p { F.d with todo := rest, client := .idle } op) hm (at_free _)
        (hpl.2.2.2 _) rfl ?_
      intro _ _
      rw [hstep _ rfl, hfin _ _ rfl rfl]
      rfl
  | storeLock k =>
    rw [hcl] at hmc hca hcok
    have hca := hca rfl
    unfold SState.clientStep at e
    rw [hcl] at e
    change (if F.d.current = noBlock then _ else _) = some F' at e
    split at e
    · rename_i h1
      cases e
      refine cmoved (pc := .unsupported) (d := F.d) (m := F.mutex) h ht (Or.inl ⟨rfl, by rw [hcl]; rfl⟩)
        (by rw [hcl]; rfl) rfl ⟨rfl, rfl⟩ trivial rfl ?_
      intro hp
      unfold Col.clientStep
      rw [hca]
      change some (State.storeBlock p (F.abs t) k) = _
      unfold State.storeBlock
      have h1' : (F.abs t).current = noBlock := h1
      rw [if_pos h1']
      unfold SState.abs
      rw [hcl]
      simp only [CPC.abs, CPC.buf, CPC.chg, ClientPC.wake, ite_self]
    · rename_i h1
      obtain ⟨hm, e⟩ := acquire_some e
      refine cquiet (pc := .storeMove k) (d := F.d) (m := some none) h ht (Or.inr (Or.inl ⟨hm, rfl, rfl⟩))
        (by rw [hcl]; rfl) rfl ⟨rfl, rfl⟩ h1 ?_ (by rw [hcl]; simp [CPC.rank]) e
      intro q
      rw [hcl]
      rfl
  | storeMove k =>
    rw [hcl] at hmc hcok
    unfold SState.clientStep at e
    rw [hcl] at e
    cases e
    refine cquiet (pc := .storeTest k F.d.buffer) (d := { F.d with buffer := Rows.empty }) (m := F.mutex) h ht
      (Or.inl ⟨rfl, by rw [hcl]; rfl⟩) (by rw [hcl]; rfl) rfl ⟨rfl, rfl⟩ hcok ?_ (by rw [hcl]; simp [CPC.rank]) rfl
    intro q
    rw [hcl]
    rfl
  | storeTest k item =>
    rw [hcl] at hmc hcok hca
    have hca := hca rfl
    have hm := hmc.mp rfl
    unfold SState.clientStep at e
    rw [hcl] at e
    change (if p.maxCache ≤ F.d.cache.length ∨ F.d.cache.has F.d.current then _ else _) = some F' at e
    split at e
    · rename_i h1
      cases e
      refine cmoved (pc := .storeWait k item) (d := F.d) (m := none) h ht (Or.inr (Or.inr ⟨hm, rfl, rfl⟩))
        (by rw [hcl]; rfl) rfl ⟨rfl, rfl⟩ hcok rfl ?_
      intro hp
      unfold Col.clientStep
      rw [hca]
      change some (State.storeBlock p (F.abs t) k) = _
      unfold State.storeBlock
      have h0 : ¬ (F.abs t).current = noBlock := hcok
      have h1' : p.maxCache ≤ (F.abs t).cache.length ∨ (F.abs t).cache.has (F.abs t).current := h1
      rw [if_neg h0, if_pos h1']
      rw [(pend_client hm).2] at hp
      unfold SState.abs
      rw [hp, hcl]
      rfl
    · rename_i h1
      cases e
      refine cquiet (pc := .storeInsert k item) (d := F.d) (m := F.mutex) h ht (Or.inl ⟨rfl, by rw [hcl]; rfl⟩)
        (by rw [hcl]; rfl) rfl ⟨rfl, rfl⟩ ⟨hcok, h1⟩ ?_ (by rw [hcl]; simp [CPC.rank]) rfl
      intro q
      rw [hcl]
      rfl
  | storeWait k item => unfold SState.clientStep at e; rw [hcl] at e; cases e
  | storeWoken k item =>
    rw [hcl] at hcok
    unfold SState.clientStep at e
    rw [hcl] at e
    obtain ⟨hm, e⟩ := acquire_some e
    refine cquiet (pc := .storeTest k item) (d := F.d) (m := some none) h ht (Or.inr (Or.inl ⟨hm, rfl, rfl⟩))
      (by rw [hcl]; rfl) rfl ⟨rfl, rfl⟩ hcok ?_ (by rw [hcl]; simp [CPC.rank]) e
    intro q
    rw [hcl]
    rfl
  | storeInsert k item =>
    rw [hcl] at hmc hcok hca
    have hca := hca rfl
    have hm := hmc.mp rfl
    unfold SState.clientStep at e
    rw [hcl] at e
    cases e
    refine cset (pc := .storeNotify k) h ht hm (by rw [hcl]; rfl) rfl rfl trivial rfl ?_
    intro hp hp'
    unfold Col.clientStep
    rw [hca]
    change some (State.storeBlock p (F.abs t) k) = _
    unfold State.storeBlock
    have h0 : ¬ (F.abs t).current = noBlock := hcok.1
    have h1' : ¬ (p.maxCache ≤ (F.abs t).cache.length ∨ (F.abs t).cache.has (F.abs t).current) := hcok.2
    rw [if_neg h0, if_neg h1']
    unfold SState.abs
    rw [hp', hcl]
    rfl
  | storeNotify k =>
    rw [hcl] at hmc
    have hm := hmc.mp rfl
    unfold SState.clientStep at e
    rw [hcl] at e
    cases e
    exact cnotify (pc := .storeUnlock k) h ht hm (by rw [hcl]; rfl) rfl rfl trivial (by rw [hcl]; exact ⟨rfl, rfl, rfl⟩)
      (by rw [hcl]; simp [CPC.rank]) rfl
  | storeUnlock k =>
    rw [hcl] at hmc
    have hm := hmc.mp rfl
    unfold SState.clientStep at e
    rw [hcl] at e
    cases e
    refine cquiet (pc := .storeReset k) (d := F.d) (m := none) h ht (Or.inr (Or.inr ⟨hm, rfl, rfl⟩))
      (by rw [hcl]; rfl) rfl ⟨rfl, rfl⟩ trivial ?_ (by rw [hcl]; simp [CPC.rank]) rfl
    intro q
    rw [hcl]
    rfl
  | storeReset k =>
    unfold SState.clientStep at e
    rw [hcl] at e
    cases e
    refine cquiet (pc := CPC.at k.pc) (d := { F.d with changed := false, buffer := Rows.empty }) (m := F.mutex) h ht
      (Or.inl ⟨rfl, by rw [hcl, at_free]; rfl⟩) (by rw [hcl]; rfl) (at_notify _) ⟨rfl, rfl⟩ (by cases k <;> trivial) ?_
      (by rw [hcl]; cases k <;> simp [CPC.rank, CPC.at, After.pc]) rfl
    intro q
    rw [hcl]
    cases k <;> rfl
  | getLock row =>
    unfold SState.clientStep at e
    rw [hcl] at e
    obtain ⟨hm, e⟩ := acquire_some e
    refine cquiet (pc := .getTest row) (d := F.d) (m := some none) h ht (Or.inr (Or.inl ⟨hm, rfl, rfl⟩))
      (by rw [hcl]; rfl) rfl ⟨rfl, rfl⟩ trivial ?_ (by rw [hcl]; simp [CPC.rank]) e
    intro q
    rw [hcl]
    rfl
  | getTest row =>
    rw [hcl] at hmc hca
    have hca := hca rfl
    have hm := hmc.mp rfl
    unfold SState.clientStep at e
    rw [hcl] at e
    change (if F.d.cache.has (row / F.d.rowsPerBlock) then _ else _) = some F' at e
    split at e
    · rename_i h1
      cases e
      refine cmoved (pc := .getWait row) (d := F.d) (m := none) h ht (Or.inr (Or.inr ⟨hm, rfl, rfl⟩))
        (by rw [hcl]; rfl) rfl ⟨rfl, rfl⟩ trivial rfl ?_
      intro hp
      unfold Col.clientStep
      rw [hca]
      have h1' : (F.abs t).cache.has (row / (F.abs t).rowsPerBlock) = true := h1
      change (if (F.abs t).cache.has (row / (F.abs t).rowsPerBlock) then _ else _) = _
      rw [if_pos h1']
      rw [(pend_client hm).2] at hp
      unfold SState.abs
      rw [hp, hcl]
      rfl
    · rename_i h1
      cases e
      refine cquiet (pc := .getUnlock row) (d := F.d) (m := F.mutex) h ht (Or.inl ⟨rfl, by rw [hcl]; rfl⟩)
        (by rw [hcl]; rfl) rfl ⟨rfl, rfl⟩ (Bool.eq_false_iff.mpr h1) ?_ (by rw [hcl]; simp [CPC.rank]) rfl
      intro q
      rw [hcl]
      rfl
  | getWait row => unfold SState.clientStep at e; rw [hcl] at e; cases e
  | getWoken row =>
    unfold SState.clientStep at e
    rw [hcl] at e
    obtain ⟨hm, e⟩ := acquire_some e
    refine cquiet (pc := .getTest row) (d := F.d) (m := some none) h ht (Or.inr (Or.inl ⟨hm, rfl, rfl⟩))
      (by rw [hcl]; rfl) rfl ⟨rfl, rfl⟩ trivial ?_ (by rw [hcl]; simp [CPC.rank]) e
    intro q
    rw [hcl]
    rfl
  | getUnlock row =>
    rw [hcl] at hmc hcok
    have hm := hmc.mp rfl
    unfold SState.clientStep at e
    rw [hcl] at e
    cases e
    refine cquiet (pc := .getAccess row) (d := F.d) (m := none) h ht (Or.inr (Or.inr ⟨hm, rfl, rfl⟩))
      (by rw [hcl]; rfl) rfl ⟨rfl, rfl⟩ hcok ?_ (by rw [hcl]; simp [CPC.rank]) rfl
    intro q
    rw [hcl]
    rfl
  | getAccess row =>
    rw [hcl] at hcok hca
    have hca := hca rfl
    unfold SState.clientStep at e
    rw [hcl] at e
    cases e
    have hpl := at_plain (p := p) (n := p.threads) (K := K) (access_waits F.d (.get row))
    refine cmoved (pc := CPC.at (F.d.access (.get row)).client) (d := F.d.access (.get row)) (m := F.mutex) h ht
      (Or.inl ⟨rfl, by rw [hcl, at_free]; rfl⟩) (by rw [hcl]; rfl) (at_notify _) (access_vars _ _) (hpl.2.2.2 _) rfl ?_
    intro _
    unfold Col.clientStep
    rw [hca]
    have h1 : ¬ (F.abs t).cache.has (row / (F.abs t).rowsPerBlock) = true := by
      have h2 : F.d.cache.has (row / F.d.rowsPerBlock) = false := hcok
      intro h3
      have h4 : F.d.cache.has (row / F.d.rowsPerBlock) = true := h3
      rw [h2] at h4
      cases h4
    change (if (F.abs t).cache.has (row / (F.abs t).rowsPerBlock) then _ else _) = _
    rw [if_neg h1]
    have h2 : (F.abs t).access (.get row) = { F.d.access (.get row) with threads := t } := by
      rw [← access_threads, ← access_client { F.d with threads := t } (.get row) (.getLock row)]
      congr 1
      unfold SState.abs
      rw [hcl]
      simp only [CPC.abs, CPC.buf, CPC.chg, ClientPC.wake, ite_self]
    rw [h2]
    conv_rhs => unfold SState.abs
    simp only
    rw [hpl.2.1, hpl.2.2.1, abs_wake hpl.1, at_abs, ite_self]
  | load k =>
    rw [hcl] at hca
    have hca := hca rfl
    unfold SState.clientStep at e
    rw [hcl] at e
    cases e
    have hcli : ((State.loadBlock p F.d (k.row / F.d.rowsPerBlock) junk).finish k).client = .idle := by cases k <;> rfl
    have hpl := at_plain (p := p) (n := p.threads) (K := K)
      (pc := ((State.loadBlock p F.d (k.row / F.d.rowsPerBlock) junk).finish k).client) (by rw [hcli]; rfl)
    refine cmoved (pc := CPC.at ((State.loadBlock p F.d (k.row / F.d.rowsPerBlock) junk).finish k).client)
      (d := (State.loadBlock p F.d (k.row / F.d.rowsPerBlock) junk).finish k) (m := F.mutex) h ht
      (Or.inl ⟨rfl, by rw [hcl, at_free]; rfl⟩) (by rw [hcl]; rfl) (at_notify _) (by cases k <;> exact ⟨rfl, rfl⟩)
      (hpl.2.2.2 _) rfl ?_
    intro hp
    unfold Col.clientStep
    rw [hca]
    change some ((State.loadBlock p (F.abs t) (k.row / (F.abs t).rowsPerBlock) junk).finish k) = _
    have h2 : (F.abs t) = { F.d with client := .load k, threads := t } := by
      unfold SState.abs
      rw [hcl]
      simp only [CPC.abs, CPC.buf, CPC.chg, ClientPC.wake, ite_self]
    rw [h2]
    conv_rhs => unfold SState.abs
    simp only
    rw [hpl.2.1, hpl.2.2.1, abs_wake hpl.1, at_abs, ite_self]
    cases k <;> rfl
  | stopLock prep =>
    unfold SState.clientStep at e
    rw [hcl] at e
    obtain ⟨hm, e⟩ := acquire_some e
    refine cquiet (pc := .stopTest prep) (d := F.d) (m := some none) h ht (Or.inr (Or.inl ⟨hm, rfl, rfl⟩))
      (by rw [hcl]; rfl) rfl ⟨rfl, rfl⟩ trivial ?_ (by rw [hcl]; simp [CPC.rank]) e
    intro q
    rw [hcl]
    rfl
  | stopTest prep =>
    rw [hcl] at hmc hca
    have hca := hca rfl
    have hm := hmc.mp rfl
    unfold SState.clientStep at e
    rw [hcl] at e
    change (if F.d.started = false then if F.d.cache ≠ [] then _ else _ else _) = some F' at e
    split at e
    · rename_i h1
      have h1' : (F.abs t).started = false := h1
      split at e
      · rename_i h2
        have h2' : (F.abs t).cache ≠ [] := h2
        cases e
        refine cmoved (pc := .failed) (d := { F.d with locked := if prep then false else F.d.locked }) (m := none) h ht
          (Or.inr (Or.inr ⟨hm, rfl, rfl⟩)) (by rw [hcl]; rfl) rfl ⟨rfl, rfl⟩ trivial rfl ?_
        intro _
        unfold Col.clientStep
        rw [hca]
        cases prep
        · simp only [CPC.abs, Bool.false_eq_true, if_false]
          rw [if_pos h1', if_pos h2']
          unfold SState.abs
          simp only [hcl, CPC.abs, CPC.buf, CPC.chg, ClientPC.wake, ite_self]
        · simp only [CPC.abs, if_true]
          rw [if_pos h1', if_pos h2']
          unfold SState.abs
          simp only [hcl, CPC.abs, CPC.buf, CPC.chg, ClientPC.wake, ite_self]
      · rename_i h2
        have h2' : ¬ (F.abs t).cache ≠ [] := h2
        cases e
        refine cmoved (pc := if prep then .join true else .closed) (d := F.d) (m := none) h ht
          (Or.inr (Or.inr ⟨hm, rfl, by cases prep <;> rfl⟩)) (by rw [hcl]; rfl) (by cases prep <;> rfl) ⟨rfl, rfl⟩
          (by cases prep <;> trivial) rfl ?_
        intro _
        unfold Col.clientStep
        rw [hca]
        cases prep
        · simp only [CPC.abs, Bool.false_eq_true, if_false]
          rw [if_pos h1', if_neg h2']
          unfold SState.abs
          simp only [hcl, CPC.abs, CPC.buf, CPC.chg, ClientPC.wake, ite_self]
        · simp only [CPC.abs, if_true]
          rw [if_pos h1', if_neg h2']
          unfold SState.abs
          simp only [hcl, CPC.abs, CPC.buf, CPC.chg, ClientPC.wake, ite_self, if_true]
    · rename_i h1
      cases e
      refine cquiet (pc := .stopLoop prep) (d := F.d) (m := F.mutex) h ht (Or.inl ⟨rfl, by rw [hcl]; rfl⟩)
        (by rw [hcl]; rfl) rfl ⟨rfl, rfl⟩ ((Bool.not_eq_false _).mp h1) ?_ (by rw [hcl]; simp [CPC.rank]) rfl
      intro q
      rw [hcl]
      rfl
  | stopLoop prep =>
    rw [hcl] at hmc hca hcok
    have hca := hca rfl
    have hm := hmc.mp rfl
    unfold SState.clientStep at e
    rw [hcl] at e
    change (if F.d.cache ≠ [] then _ else _) = some F' at e
    have h1' : ¬ (F.abs t).started = false := by
      intro h1
      have h2 : F.d.started = true := hcok
      have h3 : F.d.started = false := h1
      rw [h2] at h3
      cases h3
    split at e
    · rename_i h2
      have h2' : (F.abs t).cache ≠ [] := h2
      cases e
      refine cmoved (pc := .stopWait prep) (d := F.d) (m := none) h ht
        (Or.inr (Or.inr ⟨hm, rfl, rfl⟩)) (by rw [hcl]; rfl) rfl ⟨rfl, rfl⟩ hcok rfl ?_
      intro hp
      rw [(pend_client hm).2] at hp
      unfold Col.clientStep
      rw [hca]
      cases prep
      · simp only [CPC.abs, Bool.false_eq_true, if_false]
        rw [if_neg h1', if_pos h2']
        unfold SState.abs
        rw [hp, hcl]
        rfl
      · simp only [CPC.abs, if_true]
        rw [if_neg h1', if_pos h2']
        unfold SState.abs
        rw [hp, hcl]
        rfl
    · rename_i h2
      cases e
      refine cquiet (pc := .stopSet prep) (d := F.d) (m := F.mutex) h ht (Or.inl ⟨rfl, by rw [hcl]; rfl⟩)
        (by rw [hcl]; rfl) rfl ⟨rfl, rfl⟩ ⟨hcok, not_not.mp h2⟩ ?_ (by rw [hcl]; simp [CPC.rank]) rfl
      intro q
      rw [hcl]
      rfl
  | stopWait prep => unfold SState.clientStep at e; rw [hcl] at e; cases e
  | stopWoken prep =>
    rw [hcl] at hcok
    unfold SState.clientStep at e
    rw [hcl] at e
    obtain ⟨hm, e⟩ := acquire_some e
    refine cquiet (pc := .stopLoop prep) (d := F.d) (m := some none) h ht (Or.inr (Or.inl ⟨hm, rfl, rfl⟩))
      (by rw [hcl]; rfl) rfl ⟨rfl, rfl⟩ hcok ?_ (by rw [hcl]; simp [CPC.rank]) e
    intro q
    rw [hcl]
    rfl
  | stopSet prep =>
    rw [hcl] at hmc hcok hca
    have hca := hca rfl
    have hm := hmc.mp rfl
    unfold SState.clientStep at e
    rw [hcl] at e
    cases e
    refine cset (pc := .stopNotify prep) h ht hm (by rw [hcl]; rfl) rfl rfl trivial rfl ?_
    intro hp hp'
    have h1' : ¬ (F.abs t).started = false := by
      intro h1
      have h2 : F.d.started = true := hcok.1
      have h3 : F.d.started = false := h1
      rw [h2] at h3
      cases h3
    have h2' : ¬ (F.abs t).cache ≠ [] := not_not.mpr hcok.2
    unfold Col.clientStep
    rw [hca]
    cases prep
    · simp only [CPC.abs, Bool.false_eq_true, if_false]
      rw [if_neg h1', if_neg h2']
      unfold SState.abs
      rw [hp', hcl]
      rfl
    · simp only [CPC.abs, if_true]
      rw [if_neg h1', if_neg h2']
      unfold SState.abs
      rw [hp', hcl]
      rfl
  | stopNotify prep =>
    rw [hcl] at hmc
    have hm := hmc.mp rfl
    unfold SState.clientStep at e
    rw [hcl] at e
    cases e
    exact cnotify (pc := .stopUnlock prep) h ht hm (by rw [hcl]; rfl) rfl rfl trivial (by rw [hcl]; exact ⟨rfl, rfl, rfl⟩)
      (by rw [hcl]; simp [CPC.rank]) rfl
  | stopUnlock prep =>
    rw [hcl] at hmc
    have hm := hmc.mp rfl
    unfold SState.clientStep at e
    rw [hcl] at e
    cases e
    refine cquiet (pc := .join prep) (d := F.d) (m := none) h ht (Or.inr (Or.inr ⟨hm, rfl, rfl⟩))
      (by rw [hcl]; rfl) rfl ⟨rfl, rfl⟩ trivial ?_ (by rw [hcl]; simp [CPC.rank]) rfl
    intro q
    rw [hcl]
    rfl
  | join prep =>
    rw [hcl] at hca hmc
    have hca := hca rfl
    unfold SState.clientStep at e
    rw [hcl] at e
    cases prep
    · change (if ∀ i, (F.threads i).isDone = true then _ else _) = some F' at e
      split at e
      · rename_i h1
        have h1' : ∀ i, ((F.abs t).threads i).isDone = true := fun i => (tr_isDone (ht i)).mp (h1 i)
        cases e
        refine cmoved (pc := .closed) (d := { F.d with started := false }) (m := F.mutex) h ht
          (Or.inl ⟨rfl, by rw [hcl]; rfl⟩) (by rw [hcl]; rfl) rfl ⟨rfl, rfl⟩ trivial rfl ?_
        intro _
        unfold Col.clientStep
        rw [hca]
        simp only [CPC.abs, Bool.false_eq_true, if_false]
        rw [if_pos h1']
        unfold SState.abs
        simp only [hcl, CPC.abs, CPC.buf, CPC.chg, ClientPC.wake, ite_self]
      · cases e
    · change (if ∀ i, (F.threads i).isDone = true then _ else _) = some F' at e
      split at e
      · rename_i h1
        have h1' : ∀ i, ((F.abs t).threads i).isDone = true := fun i => (tr_isDone (ht i)).mp (h1 i)
        have hm : F.mutex = none := by
          rcases hx : F.mutex with _ | (_ | j)
          · rfl
          · rw [hx] at hmc; cases hmc.mpr rfl
          · have h2 := (h.mt j).mpr hx
            have h3 := h1 j
            cases h4 : F.threads j <;> rw [h4] at h2 h3 <;> first | (cases h2; done) | cases h3
        by_cases hr : F.d.rowsPerBlock ≠ 0
        · simp only at e
          rw [if_pos hr, if_pos hr] at e
          have hr' : (F.abs t).rowsPerBlock ≠ 0 := hr
          cases e
          refine cstart (pc := .idle) hm rfl trivial rfl ?_
          intro _ _
          unfold Col.clientStep
          rw [hca]
          simp only [CPC.abs, if_true]
          rw [if_pos h1', if_pos hr']
          unfold SState.abs
          simp only [hcl, CPC.abs, CPC.buf, CPC.chg, ClientPC.wake, ite_self]
          rfl
        · simp only at e
          rw [if_neg hr, if_neg hr] at e
          have hr' : ¬ (F.abs t).rowsPerBlock ≠ 0 := hr
          cases e
          refine cmoved (pc := .idle)
            (d := { F.d with started := false, buffer := Rows.empty, current := noBlock, locked := false }) (m := F.mutex) h ht
            (Or.inl ⟨rfl, by rw [hcl]; rfl⟩) (by rw [hcl]; rfl) rfl ⟨rfl, rfl⟩ trivial rfl ?_
          intro _
          unfold Col.clientStep
          rw [hca]
          simp only [CPC.abs, if_true]
          rw [if_pos h1', if_neg hr']
          unfold SState.abs
          simp only [hcl, CPC.abs, CPC.buf, CPC.chg, ClientPC.wake, ite_self]
      · cases e
  | closed => unfold SState.clientStep at e; rw [hcl] at e; cases e
  | failed => unfold SState.clientStep at e; rw [hcl] at e; cases e
  | prepStart =>
    rw [hcl] at hca
    have hca := hca rfl
    unfold SState.clientStep at e
    rw [hcl] at e
    cases e
    refine cmoved (pc := .stopLock true) (d := { F.d with locked := true }) (m := F.mutex) h ht
      (Or.inl ⟨rfl, by rw [hcl]; rfl⟩) (by rw [hcl]; rfl) rfl ⟨rfl, rfl⟩ trivial rfl ?_
    intro _
    unfold Col.clientStep
    rw [hca]
    unfold SState.abs
    simp only [hcl, CPC.abs, CPC.buf, CPC.chg, ClientPC.wake, ite_self, if_true]
  | unsupported => unfold SState.clientStep at e; rw [hcl] at e; cases e

end client
end Dysco.Stmt
