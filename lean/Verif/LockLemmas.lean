import Verif.LockModel
import Verif.MStmtProps

/-!
# Lemmas for `LockProps`

Statements outside the calls of the manager do not depend on `_nBlocksInFile`.
-/

namespace Dysco.Lock
open Col Multi Stmt MStmt

section column
variable {V K : Type} {n : Nat}

/-- The column with another number of blocks in the file. -/
def wN (f : SState V K n) (x : Nat) : SState V K n := { f with d := { f.d with nBlocks := x } }

theorem finish_wN (s : State V K n) (k : Next V) (x : Nat) :
    State.finish { s with nBlocks := x } k = { s.finish k with nBlocks := x } := by cases k <;> rfl

theorem access_wN (s : State V K n) (k : Next V) (x : Nat) :
    State.access { s with nBlocks := x } k = { s.access k with nBlocks := x } := by
  unfold State.access
  simp only [finish_wN]
  repeat' split
  all_goals rfl

theorem finish_nBlocks (s : State V K n) (k : Next V) : (s.finish k).nBlocks = s.nBlocks := by cases k <;> rfl

theorem access_nBlocks (s : State V K n) (k : Next V) : (s.access k).nBlocks = s.nBlocks := by
  unfold State.access
  repeat' split
  all_goals first | rfl | exact finish_nBlocks _ _

/-- `o'` is `o` with another number of blocks, and `o` leaves the number as it was. -/
def Frame (f : SState V K n) (x : Nat) (o' o : Option (SState V K n)) : Prop :=
  o' = o.map (wN · x) ∧ ∀ f', o = some f' → f'.d.nBlocks = f.d.nBlocks

theorem frame_none {f : SState V K n} {x : Nat} : Frame f x none none := ⟨rfl, fun _ h => by cases h⟩

theorem frame_some {f g : SState V K n} {x : Nat} (h : g.d.nBlocks = f.d.nBlocks) : Frame f x (some (wN g x)) (some g) :=
  ⟨rfl, fun _ e => by injection e with e; subst e; exact h⟩

theorem frame_is {f g g' : SState V K n} {x : Nat} (h' : g' = wN g x) (h : g.d.nBlocks = f.d.nBlocks) :
    Frame f x (some g') (some g) := by
  rw [h']; exact frame_some h

theorem frame_ite {f : SState V K n} {x : Nat} {q : Prop} [Decidable q] {a a' b b' : Option (SState V K n)}
    (ha : Frame f x a' a) (hb : Frame f x b' b) : Frame f x (if q then a' else b') (if q then a else b) := by
  split
  · exact ha
  · exact hb

theorem frame_acquire {f g : SState V K n} {x : Nat} {who : Option (Fin n)} (h : g.d.nBlocks = f.d.nBlocks) :
    Frame f x ((wN f x).acquire who (wN g x)) (f.acquire who g) := by
  unfold SState.acquire
  have : (wN f x).mutex = f.mutex := rfl
  rw [this]
  cases f.mutex with
  | none => exact frame_some (g := { g with mutex := some who }) h
  | some _ => exact frame_none

/-- The client does not use the number of blocks, except when it loads a block. -/
theorem client_wN (p : Params V K) (f : SState V K n) (junk : Nat → V) (x : Nat) (hi : f.d.todo = [])
    (hl : ∀ k, f.client ≠ .load k) : Frame f x ((wN f x).clientStep p junk) (f.clientStep p junk) := by
  unfold SState.clientStep
  have hc : (wN f x).client = f.client := rfl
  rw [hc]
  cases h : f.client with
  | load k => exact absurd h (hl k)
  | idle =>
    have : (wN f x).d.todo = [] := hi
    simp only [hi, this]
    exact frame_none
  | storeLock k =>
    simp only
    have : (wN f x).d.current = f.d.current := rfl
    rw [this]
    split
    · exact frame_some (g := { f with client := .unsupported }) rfl
    · exact frame_acquire (g := { f with client := .storeMove k }) rfl
  | getAccess row =>
    simp only
    have : (wN f x).d.access (.get row) = { f.d.access (.get row) with nBlocks := x } := access_wN f.d _ x
    rw [this]
    exact frame_some (g := { f with d := f.d.access (.get row), client := CPC.at (f.d.access (.get row)).client })
      (access_nBlocks _ _)
  | join prep =>
    cases prep with
    | false =>
      simp only
      have : (wN f x).threads = f.threads := rfl
      rw [this]
      split
      · exact frame_some (g := { f with d := { f.d with started := false }, client := .closed }) rfl
      · exact frame_none
    | true =>
      simp only
      have h1 : (wN f x).threads = f.threads := rfl
      have h2 : (wN f x).d.rowsPerBlock = f.d.rowsPerBlock := rfl
      rw [h1, h2]
      split
      · constructor
        · split <;> rfl
        · intro f' e
          injection e with e
          subst e
          split <;> rfl
      · exact frame_none
  | storeWoken k item => exact frame_acquire (g := { f with client := .storeTest k item }) rfl
  | getLock row => exact frame_acquire (g := { f with client := .getTest row }) rfl
  | getWoken row => exact frame_acquire (g := { f with client := .getTest row }) rfl
  | stopLock prep => exact frame_acquire (g := { f with client := .stopTest prep }) rfl
  | stopWoken prep => exact frame_acquire (g := { f with client := .stopLoop prep }) rfl
  | _ =>
    repeat' first
      | exact frame_none
      | exact frame_is rfl rfl
      | refine frame_ite ?_ ?_

/-- An encoder thread does not use the number of blocks, except when it writes a block. -/
theorem thread_wN (f : SState V K n) (t : Fin n) (x : Nat) (hw : ∀ b r, f.threads t ≠ .write b r) :
    Frame f x ((wN f x).threadStep t) (f.threadStep t) := by
  unfold SState.threadStep
  have hc : (wN f x).threads t = f.threads t := rfl
  rw [hc]
  cases h : f.threads t with
  | write b r => exact absurd h (hw b r)
  | scan again k =>
    simp only
    have h1 : (wN f x).d.cache = f.d.cache := rfl
    rw [h1]
    cases f.d.cache[k]? <;> exact frame_is rfl rfl
  | encode b =>
    simp only
    have h1 : (wN f x).d.cache = f.d.cache := rfl
    rw [h1]
    cases rowsOf f.d.cache b <;> exact frame_is rfl rfl
  | lock => exact frame_acquire (g := f.setT t .test) rfl
  | woken => exact frame_acquire (g := f.setT t (.scan true 0)) rfl
  | relock b => exact frame_acquire (g := f.setT t (.erase b)) rfl
  | _ =>
    repeat' first
      | exact frame_none
      | exact frame_is rfl rfl
      | refine frame_ite ?_ ?_

theorem put_wN (p : Params V K) (s : State V K n) (row : Nat) (v : V) (x : Nat) :
    State.put p { s with nBlocks := x } row v = { State.put p s row v with nBlocks := x } ∧
      (State.put p s row v).nBlocks = s.nBlocks := by
  unfold State.put
  simp only
  by_cases h1 : s.rowsPerBlock ≠ 0
  · simp only [if_pos h1]
    exact ⟨access_wN s _ x, access_nBlocks _ _⟩
  · simp only [if_neg h1]
    by_cases h2 : s.buffer.len = 0
    · simp only [if_pos h2, and_self]
    · simp only [if_neg h2]
      by_cases h3 : p.differs (p.key row) s.last = true
      · simp only [if_pos h3]
        by_cases h4 : row = 0
        · simp only [if_pos h4, and_self]
        · simp only [if_neg h4]
          by_cases h5 : s.cache ≠ []
          · simp only [if_pos h5, and_self]
          · simp only [if_neg h5]
            exact ⟨access_wN (State.start { s with rowsPerBlock := row }) _ x, access_nBlocks _ _⟩
      · simp only [if_neg h3, and_self]

theorem get_wN (s : State V K n) (row x : Nat) (h : s.rowsPerBlock = 0) :
    State.get { s with nBlocks := x } row = { State.get s row with nBlocks := x } ∧ (State.get s row).nBlocks = s.nBlocks := by
  have e : ∀ s : State V K n, s.rowsPerBlock = 0 → State.get s row = { s with outs := s.outs ++ [(row, .zero)] } :=
    fun s hs => if_pos hs
  rw [e s h, e { s with nBlocks := x } h]
  exact ⟨rfl, rfl⟩

theorem close_wN (p : Params V K) (s : State V K n) (x : Nat) :
    State.call p { s with nBlocks := x } .close = { State.call p s .close with nBlocks := x } ∧
      (State.call p s .close).nBlocks = s.nBlocks := by
  by_cases h : s.changed = true
  · have e : ∀ s : State V K n, s.changed = true → State.call p s .close = { s with client := .store .stop } :=
      fun s hs => if_pos hs
    rw [e s h, e { s with nBlocks := x } h]
    exact ⟨rfl, rfl⟩
  · have e : ∀ s : State V K n, ¬s.changed = true → State.call p s .close = { s with client := .stopLock } :=
      fun s hs => if_neg hs
    rw [e s h, e { s with nBlocks := x } h]
    exact ⟨rfl, rfl⟩

/-- Calls that do not ask for the number of blocks. -/
def asks (s : State V K n) : Op V → Bool
  | .put _ _ | .close => false
  | .get _ => s.rowsPerBlock != 0
  | .addColumn | .otherInit _ => true

theorem enter_wN (p : Params V K) (f : SState V K n) (op : Op V) (x : Nat) (h : asks f.d op = false) :
    enterCall p (wN f x) op = wN (enterCall p f op) x ∧ (enterCall p f op).d.nBlocks = f.d.nBlocks := by
  have key : State.call p { (wN f x).d with client := .idle } op =
      { State.call p { f.d with client := .idle } op with nBlocks := x } ∧
      (State.call p { f.d with client := .idle } op).nBlocks = f.d.nBlocks := by
    cases op with
    | put row v =>
      exact put_wN p { f.d with client := .idle } row v x
    | get row =>
      have h0 : f.d.rowsPerBlock = 0 := by simpa [asks] using h
      exact get_wN { f.d with client := .idle } row x h0
    | close =>
      exact close_wN p { f.d with client := .idle } x
    | addColumn => cases h
    | otherInit rows => cases h
  refine ⟨?_, key.2⟩
  unfold enterCall
  rw [key.1]
  rfl

end column

variable {K : Type} {c : Nat} {W : Fin c → Type} {P : (i : Fin c) → Params (W i) K}

/-! ## States that differ in the number of blocks in the file -/

/-- The same up to the number of blocks in the file. -/
structure Same (F A : MSState P) : Prop where
  pc : F.pc = A.pc
  todo : F.todo = A.todo
  rows : F.rowsPerBlock = A.rowsPerBlock
  view : ∀ i, F.view i = wN (A.view i) F.nBlocks

section same
variable {F A F' A' : MSState P}

theorem Same.client (h : Same F A) (i : Fin c) : (F.cols i).client = (A.cols i).client := by
  have := congrArg SState.client (h.view i)
  exact this

theorem Same.threads (h : Same F A) (i : Fin c) : (F.cols i).threads = (A.cols i).threads := by
  have := congrArg SState.threads (h.view i)
  exact this

theorem Same.cache (h : Same F A) (i : Fin c) : (F.cols i).d.cache = (A.cols i).d.cache := by
  have := congrArg (fun f : SState (W i) K (P i).threads => f.d.cache) (h.view i)
  exact this

theorem same_calls (h : Same F A) : calls F = calls A := by
  unfold calls
  rw [h.pc, h.todo, h.rows]
  simp only [h.client]

theorem same_set (h : Same F A) {i : Fin c} {f : SState (W i) K (P i).threads} {x : Nat}
    (hF : F'.cols = Function.update F.cols i (wN f x)) (hA : A'.cols = Function.update A.cols i f) (hn : F'.nBlocks = x)
    (hpc : F'.pc = A'.pc) (htodo : F'.todo = A'.todo) (hrows : F'.rowsPerBlock = A'.rowsPerBlock) : Same F' A' := by
  refine ⟨hpc, htodo, hrows, fun j => ?_⟩
  by_cases hj : j = i
  · subst hj
    unfold MSState.view
    rw [hF, hA, Function.update_self, Function.update_self, hrows]
    subst hn
    rfl
  · have h1 : F'.cols j = F.cols j := by rw [hF, Function.update_of_ne hj]
    have h2 : A'.cols j = A.cols j := by rw [hA, Function.update_of_ne hj]
    have h3 := h.view j
    unfold MSState.view at h3 ⊢
    rw [h1, h2, hrows]
    have e1 := congrArg SState.client h3
    have e2 := congrArg SState.threads h3
    have e3 := congrArg SState.mutex h3
    have e4 := congrArg (fun f : SState (W j) K (P j).threads => { f.d with nBlocks := F'.nBlocks, rowsPerBlock := A'.rowsPerBlock }) h3
    simp only [wN] at e1 e2 e3 e4 ⊢
    rw [e1, e2, e3, e4]

/-- Steps of two states that differ in the number of blocks; the steps leave the numbers as they are. -/
def Alike (F A : MSState P) (o o' : Option (MSState P)) : Prop :=
  o = none ∧ o' = none ∨
    ∃ F' A', o = some F' ∧ o' = some A' ∧ Same F' A' ∧ F'.nBlocks = F.nBlocks ∧ A'.nBlocks = A.nBlocks

theorem alike_col (h : Same F A) {i : Fin c} {o o' : Option (SState (W i) K (P i).threads)}
    (hf : Frame (A.view i) F.nBlocks o o') (q : SState (W i) K (P i).threads → MPC W)
    (hq : ∀ f x, q (wN f x) = q f) {todo : List (MOp W)} :
    Alike F A (o.map fun f => { F.set i f with pc := q f, todo := todo })
      (o'.map fun f => { A.set i f with pc := q f, todo := todo }) := by
  obtain ⟨h1, h2⟩ := hf
  cases ho : o' with
  | none => rw [ho] at h1; rw [h1]; exact .inl ⟨rfl, rfl⟩
  | some f =>
    rw [ho] at h1
    rw [h1]
    refine .inr ⟨_, _, rfl, rfl, same_set h (i := i) (f := f) (x := F.nBlocks) rfl rfl rfl (hq f _) rfl h.rows, rfl, ?_⟩
    exact h2 f ho

theorem client_alike (h : Same F A) (hc : calls A = none ∨ calls A = some .header) (junk : (i : Fin c) → Nat → W i) :
    Alike F A (msstep F (.client junk)) (msstep A (.client junk)) := by
  have hcall : ∀ {i : Fin c} {op : Op (W i)} (q : SState (W i) K (P i).threads → MPC W) (todo : List (MOp W)),
      (∀ f x, q (wN f x) = q f) → asks (A.view i).d op = false →
      Alike F A
        (some { F.set i (enterCall (P i) (F.view i) op) with pc := q (enterCall (P i) (F.view i) op), todo := todo })
        (some { A.set i (enterCall (P i) (A.view i) op) with pc := q (enterCall (P i) (A.view i) op), todo := todo }) := by
    intro i op q todo hq ha
    obtain ⟨e1, e2⟩ := enter_wN (P i) (A.view i) op F.nBlocks ha
    rw [← h.view i] at e1
    exact alike_col h (o := some _) (o' := some _) ⟨by rw [e1]; rfl, fun _ e => by injection e with e; subst e; exact e2⟩
      q hq
  have hstep : ∀ {i : Fin c} (q : SState (W i) K (P i).threads → MPC W), (∀ f x, q (wN f x) = q f) →
      (∀ k, (A.cols i).client ≠ .load k) →
      Alike F A (((F.view i).clientStep (P i) (junk i)).map fun f => { F.set i f with pc := q f })
        (((A.view i).clientStep (P i) (junk i)).map fun f => { A.set i f with pc := q f }) := by
    intro i q hq hl
    have e1 := client_wN (P i) (A.view i) (junk i) F.nBlocks rfl hl
    rw [← h.view i] at e1
    have e2 := alike_col h e1 q hq (todo := A.todo)
    have e3 : ∀ f, ({ F.set i f with pc := q f, todo := A.todo } : MSState P) = { F.set i f with pc := q f } := by
      intro f; rw [← h.todo]; rfl
    have e4 : ∀ f, ({ A.set i f with pc := q f, todo := A.todo } : MSState P) = { A.set i f with pc := q f } := fun f => rfl
    simp only [e3, e4] at e2
    exact e2
  have hpc : ∀ (q : MPC W) (r : Nat) (todo : List (MOp W)),
      Alike F A (some { F with pc := q, rowsPerBlock := r, todo := todo }) (some { A with pc := q, rowsPerBlock := r, todo := todo }) := by
    intro q r todo
    refine .inr ⟨_, _, rfl, rfl, ⟨rfl, rfl, rfl, fun i => ?_⟩, rfl, rfl⟩
    have h3 := h.view i
    have e1 := congrArg SState.client h3
    have e2 := congrArg SState.threads h3
    have e3 := congrArg SState.mutex h3
    have e4 := congrArg (fun f : SState (W i) K (P i).threads => { f.d with rowsPerBlock := r }) h3
    simp only [wN, MSState.view] at e1 e2 e3 e4 ⊢
    rw [e1, e2, e3, e4]
  simp only [msstep]
  unfold MSState.client
  rw [h.pc, h.todo]
  unfold calls at hc
  cases hp : A.pc with
  | idle =>
    rw [hp] at hc
    simp only at hc ⊢
    cases ht : A.todo with
    | nil => exact .inl ⟨rfl, rfl⟩
    | cons op rest =>
      rw [ht] at hc
      cases op with
      | put i row v =>
        simp only
        have hs : startsBlocks (P i) (F.view i).d row = startsBlocks (P i) (A.view i).d row := by rw [h.view i]; rfl
        rw [hs]
        split
        · exact hpc _ _ _
        · exact hcall (i := i) (op := .put row v) (fun f => callPC i f.client) rest (fun _ _ => rfl) rfl
      | get i row =>
        simp only at hc ⊢
        have h0 : A.rowsPerBlock = 0 := by
          by_contra h0
          rw [if_neg h0] at hc
          rcases hc with hc | hc <;> cases hc
        refine hcall (i := i) (op := .get row) (fun f => callPC i f.client) rest (fun _ _ => rfl) ?_
        show (A.rowsPerBlock != 0) = false
        rw [h0]
        rfl
      | close =>
        have := hpc (.close 0) A.rowsPerBlock rest
        rw [← h.rows] at this
        nth_rewrite 2 [h.rows] at this
        exact this
  | call i =>
    rw [hp] at hc
    simp only at hc ⊢
    refine hstep (i := i) (fun f => callPC i f.client) (fun _ _ => rfl) fun k hk => ?_
    rw [hk] at hc
    rcases hc with hc | hc <;> cases hc
  | closing i =>
    rw [hp] at hc
    simp only at hc ⊢
    refine hstep (i := i) (fun f => closePC i f.client) (fun _ _ => rfl) fun k hk => ?_
    rw [hk] at hc
    rcases hc with hc | hc <;> cases hc
  | header i row v =>
    have := hcall (i := i) (op := .put row v) (fun f => callPC i f.client) A.todo (fun _ _ => rfl) rfl
    rw [← h.todo] at this
    nth_rewrite 2 [h.todo] at this
    exact this
  | init i row v m =>
    simp only
    by_cases hm : m < c
    · rw [dif_pos hm, dif_pos hm, h.cache]
      split
      · have := hpc .failed A.rowsPerBlock A.todo
        rw [← h.rows] at this
        nth_rewrite 2 [h.rows] at this
        exact this
      · have := alike_col h (i := ⟨m, hm⟩) (o := some (startThreads (F.view ⟨m, hm⟩)))
          (o' := some (startThreads (A.view ⟨m, hm⟩))) ⟨by rw [h.view]; rfl, fun _ e => by injection e with e; subst e; rfl⟩
          (fun _ => .init i row v (m + 1)) (fun _ _ => rfl) (todo := A.todo)
        rw [← h.todo] at this
        nth_rewrite 2 [h.todo] at this
        exact this
    · rw [dif_neg hm, dif_neg hm]
      have := hpc (.header i row v) A.rowsPerBlock A.todo
      rw [← h.rows] at this
      nth_rewrite 2 [h.rows] at this
      exact this
  | close m =>
    simp only
    by_cases hm : m < c
    · rw [dif_pos hm, dif_pos hm]
      have := hcall (i := ⟨m, hm⟩) (op := .close) (fun _ => .closing ⟨m, hm⟩) A.todo (fun _ _ => rfl) rfl
      rw [← h.todo] at this
      nth_rewrite 2 [h.todo] at this
      exact this
    · rw [dif_neg hm, dif_neg hm]
      have := hpc .closed A.rowsPerBlock A.todo
      rw [← h.rows] at this
      nth_rewrite 2 [h.rows] at this
      exact this
  | closed => exact .inl ⟨rfl, rfl⟩
  | failed => exact .inl ⟨rfl, rfl⟩
  | unsupported => exact .inl ⟨rfl, rfl⟩

theorem set_alike (h : Same F A) {i : Fin c} {o o' : Option (SState (W i) K (P i).threads)}
    (hf : Frame (A.view i) F.nBlocks o o') : Alike F A (o.map (F.set i)) (o'.map (A.set i)) := by
  have e2 := alike_col h hf (fun _ => A.pc) (fun _ _ => rfl) (todo := A.todo)
  have e3 : (fun f => ({ F.set i f with pc := A.pc, todo := A.todo } : MSState P)) = F.set i := by
    funext f; rw [← h.todo, ← h.pc]; rfl
  have e4 : (fun f => ({ A.set i f with pc := A.pc, todo := A.todo } : MSState P)) = A.set i := by funext f; rfl
  rw [e3, e4] at e2
  exact e2

theorem thread_alike (h : Same F A) {i : Fin c} {t : Fin (P i).threads} (hw : ∀ b r, (A.cols i).threads t ≠ .write b r) :
    Alike F A (msstep F (.thread i t)) (msstep A (.thread i t)) := by
  have e1 := thread_wN (A.view i) t F.nBlocks hw
  rw [← h.view i] at e1
  exact set_alike h e1

theorem spuriousThread_alike (h : Same F A) (i : Fin c) (t : Fin (P i).threads) :
    Alike F A (msstep F (.spuriousThread i t)) (msstep A (.spuriousThread i t)) := by
  refine set_alike h (o := sstep (P i) (F.view i) (.spuriousThread t)) (o' := sstep (P i) (A.view i) (.spuriousThread t)) ?_
  rw [h.view i]
  exact frame_is rfl rfl

theorem spuriousClient_alike (h : Same F A) (i : Fin c) :
    Alike F A (msstep F (.spuriousClient i)) (msstep A (.spuriousClient i)) := by
  refine set_alike h (o := sstep (P i) (F.view i) .spuriousClient) (o' := sstep (P i) (A.view i) .spuriousClient) ?_
  rw [h.view i]
  exact frame_is rfl rfl

end same

/-! ## What a step leaves alone -/

section kept
variable {V : Type} {n : Nat}

theorem wake_write {pc : TPC V} {b : Nat} {r : Rows V} (h : pc = .write b r) : pc.wake = .write b r := by rw [h]; rfl

theorem acquire_some {f g f' : SState V K n} {who : Option (Fin n)} (e : f.acquire who g = some f') :
    f' = { g with mutex := some who } := by
  unfold SState.acquire at e
  split at e
  · injection e with e; exact e.symm
  · cases e

theorem client_threads {p : Params V K} {f f' : SState V K n} {junk : Nat → V} (hd : f.d.todo = [])
    (e : f.clientStep p junk = some f') {t : Fin n} {b : Nat} {r : Rows V} (h : f.threads t = .write b r) :
    f'.threads t = .write b r := by
  unfold SState.clientStep at e
  cases hc : f.client with
  | idle => simp only [hc, hd] at e; cases e
  | join prep =>
    cases prep with
    | false =>
      simp only [hc] at e
      split at e
      · injection e with e; subst e; exact h
      · cases e
    | true =>
      simp only [hc] at e
      split at e
      · rename_i ha
        have := ha t
        rw [h] at this
        cases this
      · cases e
  | _ =>
    simp only [hc] at e
    first
      | (cases e; done)
      | (have e' := acquire_some e; subst e'; exact h)
      | (injection e with e; subst e; first | exact h | exact wake_write h)
      | (split at e <;> first
          | (injection e with e; subst e; exact h)
          | (have e' := acquire_some e; subst e'; exact h)
          | (split at e <;> (injection e with e; subst e; exact h)))

theorem thread_keeps {f f' : SState V K n} {t : Fin n} (e : f.threadStep t = some f') :
    (∀ t', t' ≠ t → ∀ b r, f.threads t' = .write b r → f'.threads t' = .write b r) ∧
      (∀ k, f.client = .load k → f'.client = .load k) := by
  unfold SState.threadStep at e
  have hu : ∀ pc t', t' ≠ t → Function.update f.threads t pc t' = f.threads t' := fun pc t' h => Function.update_of_ne h _ _
  cases hc : f.threads t with
  | notify =>
    simp only [hc] at e
    injection e with e
    subst e
    refine ⟨fun t' ht b r h => wake_write ?_, fun k h => by show f.client.wake = _; rw [h]; rfl⟩
    show Function.update f.threads t _ t' = _
    rw [hu _ _ ht]
    exact h
  | _ =>
    simp only [hc] at e
    first
      | (cases e; done)
      | (have e' := acquire_some e; subst e'
         exact ⟨fun t' ht b r h => (hu _ _ ht).trans h, fun k h => h⟩)
      | (injection e with e; subst e
         exact ⟨fun t' ht b r h => (hu _ _ ht).trans h, fun k h => h⟩)
      | (split at e <;> first
          | (cases e; done)
          | (injection e with e; subst e
             exact ⟨fun t' ht b r h => (hu _ _ ht).trans h, fun k h => h⟩))

end kept

end Dysco.Lock
