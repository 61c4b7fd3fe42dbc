import Verif.MultiLemmas

/-! # Several columns in one file -/

namespace Dysco.Multi
open Col
variable {V K : Type} {c : Nat} {W : Fin c → Type} {P : (i : Fin c) → Params (W i) K}
variable {k : K} {rows nB : Nat} {file : (i : Fin c) → Nat → Option (Rows (W i))} {prog : List (MOp W)}

theorem good_step (hn : ∀ i, 0 < (P i).threads) {S S' : MState P} {l : MLabel P}
    (h : Good k rows file nB prog S) (e : mstep S l = some S') : Good k rows file nB prog S' := by
  cases l with
  | client junk => exact good_client hn h e
  | thread i t => exact good_thread h e
  | spuriousThread i t => exact good_spurious h e
  | spuriousClient i => exact good_wake h e

theorem good_initial : Good k rows file nB prog (minitial P k rows file nB prog) := by
  refine ⟨fun _ => rfl, fun i => ⟨[], ⟨[], ?_, .inr rfl⟩, by simp, ⟨[], [], rfl, by simp, by simp⟩, by simp,
    fun rest => ⟨[], ?_⟩⟩, fun _ => ⟨rfl, ?_⟩⟩
  · show [] ++ (ops i prog ++ []) = _
    simp
  · show some _ = some _
    rfl
  · simp [minitial]

theorem mrun_induct {Q : MState P → Prop} (hs : ∀ S l S', Q S → mstep S l = some S' → Q S') {S S' : MState P}
    (h0 : Q S) {ls : List (MLabel P)} (e : mrun S ls = some S') : Q S' := by
  induction ls generalizing S with
  | nil => injection e with e; subst e; exact h0
  | cons l ls ih =>
    simp only [mrun] at e
    cases h1 : mstep S l with
    | none => rw [h1] at e; cases e
    | some S1 =>
      rw [h1] at e
      exact ih (hs _ _ _ h0 h1) e

theorem good_reachable (hn : ∀ i, 0 < (P i).threads) {S : MState P}
    (h : MReachable (minitial P k rows file nB prog) S) : Good k rows file nB prog S := by
  obtain ⟨ls, e⟩ := h
  exact mrun_induct (fun _ _ _ => good_step hn) good_initial e

/-- Whatever the columns of a manager do, each one is in a state that it also reaches alone, by its own calls;
the first put that fixes the rows per block is `otherInit` for the others. -/
theorem column_alone (hn : ∀ i, 0 < (P i).threads) {S : MState P}
    (h : MReachable (minitial P k rows file nB prog) S) (i : Fin c) :
    ∃ done, (∃ tail, own done ++ (left S i ++ tail) = ops i prog ∧ (over S ∨ tail = [])) ∧
      (∀ m, .otherInit m ∈ done → m = S.rowsPerBlock ∧ m ≠ 0 ∧ rows = 0) ∧
      (∃ d1 d2, done = d1 ++ d2 ∧ .close ∉ d1 ∧ ∀ m, .otherInit m ∉ d2) ∧
      ∀ rest, Reachable (P i) (initial (P i) k rows (file i) nB (done ++ rest)) (proj S i rest) := by
  obtain ⟨done, hd⟩ := (good_reachable hn h).cols i
  exact ⟨done, hd.split, hd.init, hd.order, hd.reach⟩

/-- While `initializeRowsPerBlock` runs and the header is written, no encoder thread of any column has a
block: nothing else is written to the file. -/
theorem header_alone (hn : ∀ i, 0 < (P i).threads) {S : MState P}
    (h : MReachable (minitial P k rows file nB prog) S)
    (hpc : (∃ i row v m, S.pc = .init i row v m) ∨ ∃ i row v, S.pc = .header i row v) (i : Fin c)
    (t : Fin (P i).threads) :
    (S.cols i).cache = [] ∧ (∀ b r, (S.cols i).threads t ≠ .encode b r) ∧ ∀ b, (S.cols i).threads t ≠ .written b := by
  have hg := good_reachable hn h
  have hp := hg.place
  unfold Place at hp
  have hc : (S.cols i).cache = [] := by
    rcases hpc with ⟨_, _, _, _, hpc⟩ | ⟨_, _, _, hpc⟩ <;> rw [hpc] at hp <;> exact (hp.2.2 i).2
  obtain ⟨done, hd⟩ := hg.cols i
  have hi := (initial_reachable_inv (hn i) (hd.reach [])).core
  refine ⟨hc, fun b r hx => ?_, fun b hx => ?_⟩
  · have := hi.encoding t b r hx
    rw [show (proj S i []).cache = (S.cols i).cache from rfl, hc] at this
    cases this
  · obtain ⟨r, this⟩ := hi.writing t b hx
    rw [show (proj S i []).cache = (S.cols i).cache from rfl, hc] at this
    cases this

/-- Fixing the rows per block does not raise the exception of `stopThreads`: all write caches are empty. Only closing
can. -/
theorem init_succeeds (hn : ∀ i, 0 < (P i).threads) {S S' : MState P} {l : MLabel P}
    (h : MReachable (minitial P k rows file nB prog) S) (e : mstep S l = some S') (hf : S'.pc = .failed)
    (hs : S.pc ≠ .failed) : ∃ i, S.pc = .closing i := by
  cases l with
  | thread i t =>
    simp only [mstep, Option.map_eq_some_iff] at e
    obtain ⟨s, -, rfl⟩ := e
    exact (hs hf).elim
  | spuriousThread i t =>
    simp only [mstep, Option.map_eq_some_iff] at e
    obtain ⟨s, -, rfl⟩ := e
    exact (hs hf).elim
  | spuriousClient i =>
    simp only [mstep, Option.map_eq_some_iff] at e
    obtain ⟨s, -, rfl⟩ := e
    exact (hs hf).elim
  | client junk =>
    have hp := (good_reachable hn h).place
    unfold Place at hp
    simp only [mstep] at e
    unfold MState.client at e
    have enter_ok : ∀ (S1 : MState P) (i : Fin c) (s : State (W i) K (P i).threads),
        (s.client = .idle ∨ s.client = .unsupported ∨ working s.client = true) → (S1.enter i s).pc ≠ .failed := by
      intro S1 i s hc
      rcases enter_pc S1 hc with ⟨_, h2⟩ | ⟨_, h2⟩ | ⟨_, h2⟩ <;> rw [h2] <;> simp
    cases hpc : S.pc with
    | idle =>
      rw [hpc] at hp
      simp only [hpc] at e
      cases ht : S.todo with
      | nil => rw [ht] at e; cases e
      | cons op rest =>
        cases op with
        | put i row v =>
          simp only [ht] at e
          split at e
          · injection e with e; subst e; simp at hf
          · rename_i hx
            injection e with e
            subst e
            rw [Bool.not_eq_true] at hx
            exact (enter_ok _ _ _ (working_put hx (hp i)) hf).elim
        | get i row =>
          simp only [ht] at e
          injection e with e
          subst e
          refine (enter_ok _ _ _ ?_ hf).elim
          rcases working_get (row := row) (show (S.view i).client = .idle from hp i) with h1 | h1
          · exact .inl h1
          · exact .inr (.inr h1)
        | close => simp only [ht] at e; injection e with e; subst e; simp at hf
    | call i =>
      rw [hpc] at hp
      simp only [hpc, Option.map_eq_some_iff] at e
      obtain ⟨s, e, rfl⟩ := e
      exact (enter_ok _ _ _ (working_step (s := S.view i) hp.2 e) hf).elim
    | init i row v m =>
      rw [hpc] at hp
      simp only [hpc] at e
      split at e
      · rename_i hm
        rw [if_neg (by rw [(hp.2.2 ⟨m, hm⟩).2]; simp)] at e
        injection e with e
        subst e
        simp at hf
      · injection e with e; subst e; simp at hf
    | header i row v =>
      rw [hpc] at hp
      simp only [hpc] at e
      injection e with e
      subst e
      refine (enter_ok _ _ _ (working_put (s := S.view i) ?_ (hp.2.2 i).1) hf).elim
      unfold startsBlocks
      have : (S.view i).rowsPerBlock ≠ 0 := by
        rw [show (S.view i).rowsPerBlock = S.rowsPerBlock from rfl, hp.1]; exact hp.2.1
      simp [this]
    | close m =>
      simp only [hpc] at e
      split at e
      · injection e with e; subst e; simp at hf
      · injection e with e; subst e; simp at hf
    | closing i => exact ⟨i, rfl⟩
    | closed => rw [hpc] at e; cases e
    | failed => exact (hs hpc).elim
    | unsupported => rw [hpc] at e; cases e

/-! ## No deadlock -/

theorem ops_noAdd (i : Fin c) (l : List (MOp W)) : ∀ op ∈ ops i l, op.noAdd = true := by
  induction l with
  | nil => simp [ops]
  | cons o rest ih =>
    cases o with
    | put j row v => unfold ops; split <;> simpa [Op.noAdd] using ih
    | get j row => unfold ops; split <;> simpa [Op.noAdd] using ih
    | close => unfold ops; simpa [Op.noAdd] using ih

theorem done_noAdd {S : MState P} {i : Fin c} {done : List (Op (W i))} (h : Alone k rows file nB prog S i done) :
    ∀ op ∈ done, op.noAdd = true := by
  intro op hop
  cases hi : isInit op with
  | true => cases op <;> first | rfl | cases hi
  | false =>
    obtain ⟨tail, h1, -⟩ := h.split
    refine ops_noAdd i prog op ?_
    rw [← h1]
    refine List.mem_append_left _ ?_
    unfold own
    rw [List.mem_filter]
    exact ⟨hop, by rw [hi]; rfl⟩

/-- The program is over: the client has closed all columns, or an exception was raised, or nothing is left to do; and
the threads have ended or wait, with nothing in the caches. -/
def MFinished (S : MState P) : Prop :=
  (S.pc = .closed ∨ S.pc = .failed ∨ S.pc = .unsupported ∨ S.pc = .idle ∧ S.todo = []) ∧
    ∀ i, ((S.cols i).started = true → (S.cols i).cache = [] ∧ ∀ t, (S.cols i).threads t = .wait) ∧
      ((S.cols i).started = false → ∀ t, (S.cols i).threads t = .done)

theorem resting_step {p : Params V K} {s : State V K p.threads} (h : resting s.client = true)
    (ht : s.todo = []) (junk : Nat → V) : clientStep p s junk = none := by
  unfold clientStep
  match hpc : s.client with
  | .idle => simp only [ht]
  | .closed | .failed | .unsupported => simp only
  | .store _ | .storeWait _ | .getLock _ | .getWait _ | .load _ | .stopLock | .stopWait | .join | .prepStart
  | .prepLock | .prepWait | .prepJoin =>
    revert h
    rw [hpc]
    intro h
    cases h

/-- Whenever neither the client nor an encoder thread of any column can make a step, the program is over. -/
theorem multi_no_deadlock (hn : ∀ i, 0 < (P i).threads) (hm : ∀ i, 1 ≤ (P i).maxCache) {S : MState P}
    (h : MReachable (minitial P k rows file nB prog) S) (junk : (i : Fin c) → Nat → W i) (hc : mstep S (.client junk) = none)
    (ht : ∀ i t, mstep S (.thread i t) = none) : MFinished S := by
  have hg := good_reachable hn h
  have hp := hg.place
  have hthr : ∀ i t, step (P i) (proj S i []) (.thread t) = none := by
    intro i t
    have h1 := ht i t
    simp only [mstep, Option.map_eq_none_iff] at h1
    show threadStep (frame (S.view i) [] _) t = none
    rw [thread_frame, h1]
    rfl
  have hcol : ∀ i, step (P i) (proj S i []) (.client (junk i)) = none → Finished (proj S i []) := by
    intro i hci
    obtain ⟨done, hd⟩ := hg.cols i
    have hr := hd.reach []
    rw [List.append_nil] at hr
    exact no_deadlock (hn i) (hm i) (done_noAdd hd) hr (junk i) hci (hthr i)
  have hrest : ∀ i, resting (S.cols i).client = true → step (P i) (proj S i []) (.client (junk i)) = none :=
    fun i hi => resting_step (s := proj S i []) hi rfl (junk i)
  have hall : (∀ i, resting (S.cols i).client = true) → ∀ i, ((S.cols i).started = true →
      (S.cols i).cache = [] ∧ ∀ t, (S.cols i).threads t = .wait) ∧
      ((S.cols i).started = false → ∀ t, (S.cols i).threads t = .done) :=
    fun hr i => (hcol i (hrest i (hr i))).2
  have hcl : S.client junk = none := hc
  unfold MState.client at hcl
  unfold Place at hp
  cases hpc : S.pc with
  | idle =>
    rw [hpc] at hp
    simp only [hpc] at hcl
    cases htodo : S.todo with
    | nil => exact ⟨.inr (.inr (.inr ⟨hpc, htodo⟩)), hall fun i => by rw [hp i]; rfl⟩
    | cons op rest =>
      rw [htodo] at hcl
      cases op with
      | put i row v => simp only at hcl; split at hcl <;> cases hcl
      | get i row => cases hcl
      | close => cases hcl
  | call i =>
    rw [hpc] at hp
    simp only [hpc, Option.map_eq_none_iff] at hcl
    have hu : uninit S i = false := by unfold uninit; rw [hpc]
    have hx : proj S i [] = S.view i := by unfold proj; rw [hu]; rfl
    have hf := hcol i (by rw [hx]; exact hcl)
    have hw := hp.2
    rcases hf.1 with h1 | h1 | h1 | ⟨h1, -⟩ <;> rw [show (S.cols i).client = _ from h1] at hw <;> cases hw
  | init i row v m =>
    simp only [hpc] at hcl
    split at hcl
    · split at hcl <;> cases hcl
    · cases hcl
  | header i row v => simp only [hpc] at hcl; cases hcl
  | close m => simp only [hpc] at hcl; split at hcl <;> cases hcl
  | closing i =>
    rw [hpc] at hp
    simp only [hpc, Option.map_eq_none_iff] at hcl
    have hu : uninit S i = false := by unfold uninit; rw [hpc]
    have hx : proj S i [] = S.view i := by unfold proj; rw [hu]; rfl
    have hf := hcol i (by rw [hx]; exact hcl)
    have hw := hp.1
    rcases hf.1 with h1 | h1 | h1 | ⟨h1, -⟩ <;> rw [show (S.cols i).client = _ from h1] at hw <;> cases hw
  | closed =>
    rw [hpc] at hp
    exact ⟨.inl hpc, hall fun i => by rw [hp i]; rfl⟩
  | failed => rw [hpc] at hp; exact ⟨.inr (.inl hpc), hall hp.1⟩
  | unsupported => rw [hpc] at hp; exact ⟨.inr (.inr (.inl hpc)), hall hp.1⟩

/-! ## Writing and updating -/

theorem whole_insert {m R : Nat} {v : Nat → V} {d rest : List (Op V)} {r : Nat} (hc : Op.close ∉ d)
    (hi : ∀ m', Op.otherInit m' ∈ d → m' = m) (h : Whole m v R r (own d ++ rest)) : Whole m v R r (d ++ rest) := by
  induction d generalizing r with
  | nil => exact h
  | cons o d ih =>
    have hc' : Op.close ∉ d := fun hx => hc (List.mem_cons_of_mem _ hx)
    have hi' : ∀ m', Op.otherInit m' ∈ d → m' = m := fun m' hx => hi m' (List.mem_cons_of_mem _ hx)
    cases o with
    | put row w =>
      have : Whole m v R r (.put row w :: (own d ++ rest)) := h
      simp only [Whole] at this
      simp only [List.cons_append, Whole]
      exact ⟨this.1, this.2.1, this.2.2.1, ih hc' hi' this.2.2.2⟩
    | otherInit m' =>
      simp only [List.cons_append, Whole]
      exact ⟨hi m' List.mem_cons_self, ih hc' hi' h⟩
    | close => exact absurd List.mem_cons_self hc
    | get row => exact absurd (show Whole m v R r (.get row :: (own d ++ rest)) from h) (by simp [Whole])
    | addColumn => exact absurd (show Whole m v R r (.addColumn :: (own d ++ rest)) from h) (by simp [Whole])

theorem own_self {d : List (Op V)} (h : ∀ m, Op.otherInit m ∉ d) : own d = d := by
  unfold own
  rw [List.filter_eq_self]
  intro o ho
  cases o with
  | otherInit m => exact absurd ho (h m)
  | put _ _ | get _ | close | addColumn => rfl

theorem alone_whole {S : MState P} {i : Fin c} {done rest : List (Op (W i))} {m R : Nat} {v : Nat → W i}
    (h : Alone k rows file nB prog S i done) (hr : S.rowsPerBlock = 0 ∨ S.rowsPerBlock = m)
    (hw : Whole m v R 0 (own done ++ rest)) : Whole m v R 0 (done ++ rest) := by
  obtain ⟨d1, d2, h1, h2, h3⟩ := h.order
  have hi : ∀ m', Op.otherInit m' ∈ d1 → m' = m := by
    intro m' hm'
    obtain ⟨a1, a2, -⟩ := h.init m' (by rw [h1]; exact List.mem_append_left _ hm')
    rcases hr with hr | hr
    · rw [hr] at a1; exact (a2 a1).elim
    · rw [a1, hr]
  rw [h1, List.append_assoc]
  refine whole_insert h2 hi ?_
  rw [h1] at hw
  have : own (d1 ++ d2) = own d1 ++ d2 := by
    rw [show own (d1 ++ d2) = own d1 ++ own d2 from List.filter_append .., own_self h3]
  rw [this, List.append_assoc] at hw
  exact hw

theorem whole_ok {p : Params V K} (hn : 0 < p.threads) {m R rows0 nBlocks : Nat} {v : Nat → V}
    {todo : List (Op V)} {k : K} {s : State V K p.threads} (hm : 0 < m) (hR0 : 0 < R) (hR : R ≤ noBlock)
    (hsame : ∀ r, 0 < r → r < m → p.differs (p.key r) (p.key 0) = false)
    (hdiff : m < R → p.differs (p.key m) (p.key 0) = true)
    (hrows : rows0 = m ∨ rows0 = 0 ∧ m < R) (hw : Whole m v R 0 todo)
    (h : Reachable p (initial p k rows0 (fun _ => none) nBlocks todo) s) : WholeOK p m v R s := by
  obtain ⟨ls, e⟩ := h
  exact (run_induct (P := fun s => Inv p (fun _ => none) s ∧ WholeOK p m v R s)
    (fun s l s' hi he => ⟨step_inv hi.1 hn he, whole_step hm hR0 hR hsame hdiff hi.1 hi.2 he⟩)
    ⟨by have := initial_inv (p := p) hn k rows0 (fun _ => none) nBlocks todo
        rwa [show (if rows0 = 0 then fun _ => none else fun _ => none) = (fun _ => none : Nat → Option (Rows V)) from
          by split <;> rfl] at this, whole_initial hrows hw⟩ e).2

/-- The rows per block, once known, are the rows of the first time block. -/
theorem whole_rpb (hn : ∀ i, 0 < (P i).threads) {m R : Nat} {v : (i : Fin c) → Nat → W i} {S : MState P} (hm : 0 < m)
    (hR0 : 0 < R) (hR : R ≤ noBlock)
    (hsame : ∀ i r, 0 < r → r < m → (P i).differs ((P i).key r) ((P i).key 0) = false)
    (hdiff : ∀ i, m < R → (P i).differs ((P i).key m) ((P i).key 0) = true)
    (hrows : rows = m ∨ rows = 0 ∧ m < R) (hw : ∀ i, Whole m (v i) R 0 (ops i prog))
    (h : MReachable (minitial P k rows (fun _ _ => none) nB prog) S) : S.rowsPerBlock = 0 ∨ S.rowsPerBlock = m := by
  obtain ⟨ls, e⟩ := h
  refine (mrun_induct (Q := fun S => Good k rows (fun _ _ => none) nB prog S ∧ (S.rowsPerBlock = 0 ∨ S.rowsPerBlock = m))
    (fun S l S' hi he => ⟨good_step hn hi.1 he, ?_⟩) ⟨good_initial, ?_⟩ e).2
  · obtain ⟨hg, hr⟩ := hi
    by_cases hx : S'.rowsPerBlock = S.rowsPerBlock
    · rwa [hx]
    · -- only a put that fixes the rows per block changes them
      have hp := hg.place
      unfold Place at hp
      cases l with
      | thread i t =>
        simp only [mstep, Option.map_eq_some_iff] at he
        obtain ⟨s, -, rfl⟩ := he
        exact (hx rfl).elim
      | spuriousThread i t =>
        simp only [mstep, Option.map_eq_some_iff] at he
        obtain ⟨s, -, rfl⟩ := he
        exact (hx rfl).elim
      | spuriousClient i =>
        simp only [mstep, Option.map_eq_some_iff] at he
        obtain ⟨s, -, rfl⟩ := he
        exact (hx rfl).elim
      | client junk =>
        simp only [mstep] at he
        unfold MState.client at he
        cases hpc : S.pc with
        | idle =>
          rw [hpc] at hp
          simp only [hpc] at he
          cases ht : S.todo with
          | nil => rw [ht] at he; cases he
          | cons op rest =>
            cases op with
            | put i row w =>
              simp only [ht] at he
              split at he
              · rename_i hs
                injection he with he
                subst he
                right
                show row = m
                unfold startsBlocks at hs
                simp only [Bool.and_eq_true, beq_iff_eq, bne_iff_ne, ne_eq] at hs
                obtain ⟨⟨⟨h1, h2⟩, h3⟩, h4⟩ := hs
                have h1' : S.rowsPerBlock = 0 := h1
                obtain ⟨done, hd⟩ := hg.cols i
                obtain ⟨tail, hsp, htl⟩ := hd.split
                have htl : tail = [] := by
                  rcases htl with (h5 | h5) | h5
                  · rw [hpc] at h5; cases h5
                  · rw [hpc] at h5; cases h5
                  · exact h5
                have hleft : left S i = .put row w :: ops i rest := by
                  unfold left
                  rw [hpc, ht]
                  simp [ops]
                have hwi := hw i
                rw [← hsp] at hwi
                have hok := whole_ok (hn i) hm hR0 hR (hsame i) (hdiff i) hrows (alone_whole hd (.inl h1') hwi)
                  (hd.reach _)
                have hcl : (proj S i (left S i ++ tail)).client = .idle := hp i
                unfold WholeOK at hok
                rw [hcl] at hok
                obtain ⟨r, hw2, -, huk⟩ := hok
                have htodo : (proj S i (left S i ++ tail)).todo = .put row w :: ops i rest := by
                  rw [htl, List.append_nil, hleft]; rfl
                rw [htodo] at hw2
                simp only [Whole] at hw2
                have hrow := hw2.1
                subst hrow
                have hrp : (proj S i (left S i ++ tail)).rowsPerBlock = 0 := by
                  show (if uninit S i then 0 else S.rowsPerBlock) = 0
                  rw [h1']; split <;> rfl
                rcases huk with hu | hk
                · obtain ⟨a1, a2, a3, a4, a5⟩ := hu.some (by omega)
                  by_contra hne
                  have hlt : row < m := lt_of_le_of_ne hu.le hne
                  have hs := hsame i row (by omega) hlt
                  have a3' : (S.cols i).last = (P i).key 0 := a3
                  have h3' : (P i).differs ((P i).key row) (S.cols i).last = true := h3
                  rw [a3', hs] at h3'
                  cases h3'
                · have := hk.rpb
                  omega
              · injection he with he; subst he; exact (hx rfl).elim
            | get i row => simp only [ht] at he; injection he with he; subst he; exact (hx rfl).elim
            | close => simp only [ht] at he; injection he with he; subst he; exact (hx rfl).elim
        | call i =>
          simp only [hpc, Option.map_eq_some_iff] at he
          obtain ⟨s, -, rfl⟩ := he
          exact (hx rfl).elim
        | init i row w q =>
          simp only [hpc] at he
          split at he
          · split at he
            · injection he with he; subst he; exact (hx rfl).elim
            · injection he with he; subst he; exact (hx rfl).elim
          · injection he with he; subst he; exact (hx rfl).elim
        | header i row w => simp only [hpc] at he; injection he with he; subst he; exact (hx rfl).elim
        | close q =>
          simp only [hpc] at he
          split at he
          · injection he with he; subst he; exact (hx rfl).elim
          · injection he with he; subst he; exact (hx rfl).elim
        | closing i =>
          simp only [hpc, Option.map_eq_some_iff] at he
          obtain ⟨s, -, rfl⟩ := he
          exact (hx rfl).elim
        | closed => rw [hpc] at he; cases he
        | failed => rw [hpc] at he; cases he
        | unsupported => rw [hpc] at he; cases he
  · rcases hrows with h1 | h1
    · exact .inr h1
    · exact .inl h1.1

theorem whole_close {m R : Nat} {v : Nat → V} {l : List (Op V)} {r : Nat} (h : Whole m v R r l) : Op.close ∈ l := by
  induction l generalizing r with
  | nil => exact h.elim
  | cons o l ih =>
    cases o with
    | put row w => simp only [Whole] at h; exact List.mem_cons_of_mem _ (ih h.2.2.2)
    | otherInit m' => simp only [Whole] at h; exact List.mem_cons_of_mem _ (ih h.2)
    | close => exact List.mem_cons_self
    | get row => simp [Whole] at h
    | addColumn => simp [Whole] at h

/-- A program is over and has not ended with an exception, and each column had to be closed: all are closed. -/
theorem finished_closed (hn : ∀ i, 0 < (P i).threads) {S : MState P} (hc : 0 < c)
    (h : MReachable (minitial P k rows file nB prog) S) (hcl : ∀ i, Op.close ∈ ops i prog) (hf : MFinished S)
    (h1 : S.pc ≠ .failed) (h2 : S.pc ≠ .unsupported) : S.pc = .closed := by
  rcases hf.1 with h3 | h3 | h3 | ⟨h3, h4⟩
  · exact h3
  · exact (h1 h3).elim
  · exact (h2 h3).elim
  · exfalso
    obtain ⟨done, hd⟩ := (good_reachable hn h).cols ⟨0, hc⟩
    obtain ⟨tail, h5, h6⟩ := hd.split
    have hl : left S ⟨0, hc⟩ = [] := by unfold left; rw [h3, h4]; rfl
    have ht : tail = [] := by
      rcases h6 with (h6 | h6) | h6
      · exact (h1 h6).elim
      · exact (h2 h6).elim
      · exact h6
    rw [hl, ht, List.append_nil, List.append_nil] at h5
    have h7 := hcl ⟨0, hc⟩
    rw [← h5] at h7
    have := hd.ending (List.mem_of_mem_filter h7)
    unfold final at this
    rw [h3] at this
    exact this

/-- All columns of a table are written: the rows of every column are put in order, the calls of different columns
interleave in any way, and then the manager is closed. Under every schedule no exception is raised, the program ends,
and then the file holds for every column and block the rows that were put. -/
theorem multi_whole (hn : ∀ i, 0 < (P i).threads) (hmc : ∀ i, 1 ≤ (P i).maxCache) (hc : 0 < c) {m R : Nat}
    {v : (i : Fin c) → Nat → W i} {S : MState P} (hm : 0 < m) (hR0 : 0 < R) (hR : R ≤ noBlock)
    (hsame : ∀ i r, 0 < r → r < m → (P i).differs ((P i).key r) ((P i).key 0) = false)
    (hdiff : ∀ i, m < R → (P i).differs ((P i).key m) ((P i).key 0) = true)
    (hrows : rows = m ∨ rows = 0 ∧ m < R) (hw : ∀ i, Whole m (v i) R 0 (ops i prog))
    (h : MReachable (minitial P k rows (fun _ _ => none) nB prog) S) :
    S.pc ≠ .failed ∧ S.pc ≠ .unsupported ∧
    (∀ junk, mstep S (.client junk) = none → (∀ i t, mstep S (.thread i t) = none) → S.pc = .closed) ∧
    (S.pc = .closed → ∀ i b,
      (b * m < R → ∃ r, (S.cols i).file b = some r ∧ ofBlock (S.cols i).writes b = [r] ∧
        Filled m (v i) b (rowsIn m R b) r) ∧
      (R ≤ b * m → (S.cols i).file b = none)) := by
  have hg := good_reachable hn h
  have hr := whole_rpb hn hm hR0 hR hsame hdiff hrows hw h
  have hp := hg.place
  unfold Place at hp
  have hcol : ∀ i, ∃ rest, (proj S i rest).client ≠ .failed ∧ (proj S i rest).client ≠ .unsupported ∧
      ((proj S i rest).client = .closed → ∀ b,
        (b * m < R → ∃ r, (proj S i rest).file b = some r ∧ ofBlock (proj S i rest).writes b = [r] ∧
          Filled m (v i) b (rowsIn m R b) r) ∧
        (R ≤ b * m → (proj S i rest).file b = none)) := by
    intro i
    obtain ⟨done, hd⟩ := hg.cols i
    obtain ⟨tail, hsp, -⟩ := hd.split
    have hwi := hw i
    rw [← hsp] at hwi
    have := whole_column (hn i) (hmc i) hm hR0 hR (hsame i) (hdiff i) hrows (alone_whole hd hr hwi) (hd.reach _)
    exact ⟨_, this.1, this.2.1, this.2.2.2⟩
  have h1 : S.pc ≠ .failed := by
    intro hx
    rw [hx] at hp
    obtain ⟨-, j, hj⟩ := hp
    obtain ⟨rest, h1, -, -⟩ := hcol j
    exact h1 hj
  have h2 : S.pc ≠ .unsupported := by
    intro hx
    rw [hx] at hp
    obtain ⟨-, j, hj⟩ := hp
    obtain ⟨rest, -, h1, -⟩ := hcol j
    exact h1 hj
  refine ⟨h1, h2, fun junk hs ht => ?_, fun hx i => ?_⟩
  · exact finished_closed hn hc h (fun i => whole_close (hw i)) (multi_no_deadlock hn hmc h junk hs ht) h1 h2
  · rw [hx] at hp
    obtain ⟨rest, -, -, h3⟩ := hcol i
    exact h3 (hp i)

theorem updates_close {m N : Nat} {d : List Nat} {q : Nat} {l : List (Op V)} (h : Updates m N d q l) :
    Op.close ∈ l := by
  induction l generalizing d q with
  | nil => exact h.elim
  | cons o l ih =>
    cases o with
    | put row w => simp only [Updates] at h; exact List.mem_cons_of_mem _ (ih h.2.2)
    | get row => simp only [Updates] at h; exact List.mem_cons_of_mem _ (ih h.2)
    | close => exact List.mem_cons_self
    | otherInit m' => simp [Updates] at h
    | addColumn => simp [Updates] at h

/-- The same for a reopened table, with reads and puts of every column as in `update_column`: every column ends
as if it were used alone by a program without threads. -/
theorem multi_update (hn : ∀ i, 0 < (P i).threads) (hmc : ∀ i, 1 ≤ (P i).maxCache) (hc : 0 < c) {m N : Nat}
    {blocks : (i : Fin c) → Nat → Rows (W i)} {S : MState P} (hm : 0 < m) (hN : N ≤ noBlock) (hNB : N ≤ nB)
    (hf : ∀ i b, b < N → file i b = some (blocks i b)) (hw : ∀ i, Updates m N [] noBlock (ops i prog))
    (h : MReachable (minitial P k m file nB prog) S) :
    S.pc ≠ .failed ∧ S.pc ≠ .unsupported ∧
    (∀ junk, mstep S (.client junk) = none → (∀ i t, mstep S (.thread i t) = none) → S.pc = .closed) ∧
    (S.pc = .closed → ∀ i,
      (S.cols i).outs = ((Mem.opened (blocks i)).run (P i).dec m (ops i prog)).outs ∧
      (∀ b, b < N → (S.cols i).file b = some (((Mem.opened (blocks i)).run (P i).dec m (ops i prog)).blocks b)) ∧
      ∀ b, ofBlock (S.cols i).writes b = ofBlock ((Mem.opened (blocks i)).run (P i).dec m (ops i prog)).log b) := by
  have hg := good_reachable hn h
  have hp := hg.place
  unfold Place at hp
  have hcol : ∀ i, ∃ rest, (proj S i rest).client ≠ .failed ∧ (proj S i rest).client ≠ .unsupported ∧
      ((proj S i rest).client = .closed →
        (proj S i rest).outs = ((Mem.opened (blocks i)).run (P i).dec m (ops i prog)).outs ∧
        (∀ b, b < N → (proj S i rest).file b =
          some (((Mem.opened (blocks i)).run (P i).dec m (ops i prog)).blocks b)) ∧
        ∀ b, ofBlock (proj S i rest).writes b = ofBlock ((Mem.opened (blocks i)).run (P i).dec m (ops i prog)).log b) := by
    intro i
    obtain ⟨done, hd⟩ := hg.cols i
    obtain ⟨tail, hsp, -⟩ := hd.split
    have hown : own done = done := own_self fun m' hm' => by
      have := (hd.init m' hm').2.2
      omega
    rw [hown] at hsp
    have hr := hd.reach (left S i ++ tail)
    rw [hsp] at hr
    have := update_column (hn i) (hmc i) hm hN hNB (hf i) (hw i) hr
    exact ⟨_, this.1, this.2.1, this.2.2.2⟩
  have h1 : S.pc ≠ .failed := by
    intro hx
    rw [hx] at hp
    obtain ⟨-, j, hj⟩ := hp
    obtain ⟨rest, h1, -, -⟩ := hcol j
    exact h1 hj
  have h2 : S.pc ≠ .unsupported := by
    intro hx
    rw [hx] at hp
    obtain ⟨-, j, hj⟩ := hp
    obtain ⟨rest, -, h1, -⟩ := hcol j
    exact h1 hj
  refine ⟨h1, h2, fun junk hs ht => ?_, fun hx i => ?_⟩
  · exact finished_closed hn hc h (fun i => updates_close (hw i)) (multi_no_deadlock hn hmc h junk hs ht) h1 h2
  · rw [hx] at hp
    obtain ⟨rest, -, -, h3⟩ := hcol i
    exact h3 (hp i)

/-- At every moment of an update, the blocks stored so far are the first ones that the program without threads stores,
and a block that is being encoded is one of them. -/
theorem multi_stores (hn : ∀ i, 0 < (P i).threads) {m N : Nat}
    {blocks : (i : Fin c) → Nat → Rows (W i)} {S : MState P} (hm : 0 < m) (hN : N ≤ noBlock) (hNB : N ≤ nB)
    (hf : ∀ i b, b < N → file i b = some (blocks i b)) (hw : ∀ i, Updates m N [] noBlock (ops i prog))
    (h : MReachable (minitial P k m file nB prog) S) (i : Fin c) {t : Fin (P i).threads} {b : Nat} {r : Rows (W i)}
    (ht : (S.cols i).threads t = .encode b r) :
    (b, r) ∈ ((Mem.opened (blocks i)).run (P i).dec m (ops i prog)).log := by
  have hg := good_reachable hn h
  obtain ⟨done, hd⟩ := hg.cols i
  obtain ⟨tail, hsp, -⟩ := hd.split
  have hown : own done = done := own_self fun m' hm' => by
    have := (hd.init m' hm').2.2
    omega
  rw [hown] at hsp
  have hr := hd.reach (left S i ++ tail)
  rw [hsp] at hr
  have hst := encoding_stored (initial_reachable_inv (hn i) hr).core (t := t) (b := b) (r := r) ht
  exact (update_stores (hn i) hm hN hNB (hf i) (hw i) hr).subset hst

/-! ## Termination -/

/-- A bound for the steps of one call, summed over the columns. -/
def callCost (P : (i : Fin c) → Params (W i) K) : Nat := ∑ i, (4 * (P i).threads + 11)

/-- Steps of the manager itself that are to come in the present call. -/
def pcCost (P : (i : Fin c) → Params (W i) K) : MPC W → Nat
  | .init _ _ _ m => (c - m) * callCost P + callCost P + 1
  | .header .. => callCost P
  | .close m => (c - m) * callCost P + 1
  | .closing i => (c - (i.val + 1)) * callCost P + 1
  | .idle | .call _ | .closed | .failed | .unsupported => 0

/-- A bound for the number of steps that are still possible without spurious wake-ups. -/
def mwork (S : MState P) : Nat :=
  (c * callCost P + callCost P + 2) * S.todo.length + pcCost P S.pc + ∑ i, work (S.view i)

theorem cost_le (P : (i : Fin c) → Params (W i) K) (i : Fin c) : 4 * (P i).threads + 11 ≤ callCost P :=
  Finset.single_le_sum (f := fun i => 4 * (P i).threads + 11) (fun _ _ => Nat.zero_le _) (Finset.mem_univ i)

theorem work_of_eq {n : Nat} {s s' : State V K n} (h1 : s'.todo = s.todo) (h2 : s'.client = s.client)
    (h3 : s'.cache = s.cache) (h4 : s'.threads = s.threads) : work s' = work s := by
  unfold work
  rw [h1, h2, h3, h4]

/-- Only the work of column `i` changes. -/
theorem sum_set {S S' : MState P} {i : Fin c} {s : State (W i) K (P i).threads} (hc : S'.cols = (S.set i s).cols)
    (ht : s.todo = []) : ∑ j, work (S'.view j) + work (S.view i) = ∑ j, work (S.view j) + work s := by
  have h1 : ∀ j, j ≠ i → work (S'.view j) = work (S.view j) := by
    intro j hj
    have : S'.cols j = S.cols j := by rw [hc, set_same S s hj]
    refine work_of_eq rfl ?_ ?_ ?_ <;> simp only [MState.view, this]
  have h2 : work (S'.view i) = work s := by
    have : S'.cols i = s := by rw [hc, set_self]
    refine work_of_eq ht.symm ?_ ?_ ?_ <;> simp only [MState.view, this]
  rw [← Finset.add_sum_erase _ _ (Finset.mem_univ i), ← Finset.add_sum_erase _ _ (Finset.mem_univ i), h2,
    Finset.sum_congr rfl (fun j hj => h1 j (Finset.ne_of_mem_erase hj))]
  omega

theorem sum_same {S S' : MState P} (hc : S'.cols = S.cols) : ∑ j, work (S'.view j) = ∑ j, work (S.view j) := by
  refine Finset.sum_congr rfl fun j _ => ?_
  refine work_of_eq rfl ?_ ?_ ?_ <;> simp only [MState.view, hc]

/-- A step of the client or of a thread that is not a spurious wake-up. -/
def MLabel.real : MLabel P → Bool
  | .client _ | .thread _ _ => true
  | .spuriousThread _ _ | .spuriousClient _ => false

theorem enter_cost (S : MState P) {i : Fin c} {s : State (W i) K (P i).threads}
    (h : s.client = .idle ∨ s.client = .unsupported ∨ working s.client = true) : pcCost P (S.enter i s).pc = 0 := by
  rcases enter_pc S h with ⟨_, h2⟩ | ⟨_, h2⟩ | ⟨_, h2⟩ <;> rw [h2] <;> rfl

/-- The work falls when no column changes and the manager comes closer to its end. -/
theorem fall_same {S S' : MState P} (hc : S'.cols = S.cols)
    (h : (c * callCost P + callCost P + 2) * S'.todo.length + pcCost P S'.pc <
      (c * callCost P + callCost P + 2) * S.todo.length + pcCost P S.pc) : mwork S' < mwork S := by
  unfold mwork
  rw [sum_same hc]
  omega

/-- The work falls when one column changes and the sum of its work and that of the manager falls. -/
theorem fall_set {S S' : MState P} {i : Fin c} {s : State (W i) K (P i).threads} (hc : S'.cols = (S.set i s).cols)
    (ht : s.todo = [])
    (h : (c * callCost P + callCost P + 2) * S'.todo.length + pcCost P S'.pc + work s <
      (c * callCost P + callCost P + 2) * S.todo.length + pcCost P S.pc + work (S.view i)) : mwork S' < mwork S := by
  have h1 := sum_set hc ht
  unfold mwork
  omega

theorem mclient_work {S S' : MState P} {junk : (i : Fin c) → Nat → W i} (hp : Place S) (e : S.client junk = some S') :
    mwork S' < mwork S := by
  have hcost := cost_le P
  have hDm : ∀ n, (c * callCost P + callCost P + 2) * (n + 1) =
      (c * callCost P + callCost P + 2) * n + (c * callCost P + callCost P + 2) := fun n => by ring
  unfold MState.client at e
  unfold Place at hp
  cases hpc : S.pc with
  | idle =>
    rw [hpc] at hp
    simp only [hpc] at e
    cases ht : S.todo with
    | nil => rw [ht] at e; cases e
    | cons op rest =>
      cases op with
      | put i row v =>
        simp only [ht] at e
        split at e
        · injection e with e
          subst e
          refine fall_same rfl ?_
          simp only [hpc, ht, pcCost, List.length_cons, hDm, Nat.sub_zero]
          omega
        · rename_i hs
          rw [Bool.not_eq_true] at hs
          injection e with e
          subst e
          refine fall_set (i := i) (s := State.put (P i) (S.view i) row v) rfl (put_frame hs []).2.todo ?_
          have h2 := call_work (p := P i) (S.view i) (.put row v) (by rw [view_client, hp i]; rfl)
          simp only [State.call] at h2
          have h3 := hcost i
          rw [enter_cost _ (working_put hs (hp i))]
          simp only [hpc, ht, pcCost, List.length_cons, hDm, MState.enter, MState.set]
          omega
      | get i row =>
        simp only [ht] at e
        injection e with e
        subst e
        refine fall_set (i := i) (s := State.get (S.view i) row) rfl (get_frame (S.view i) row []).2.todo ?_
        have h2 := call_work (p := P i) (S.view i) (.get row) (by rw [view_client, hp i]; rfl)
        simp only [State.call] at h2
        have h3 := hcost i
        have hc : (State.get (S.view i) row).client = .idle ∨ (State.get (S.view i) row).client = .unsupported ∨
            working (State.get (S.view i) row).client = true := by
          rcases working_get (row := row) (show (S.view i).client = .idle from hp i) with h1 | h1
          · exact .inl h1
          · exact .inr (.inr h1)
        rw [enter_cost _ hc]
        simp only [hpc, ht, pcCost, List.length_cons, hDm, MState.enter, MState.set]
        omega
      | close =>
        simp only [ht] at e
        injection e with e
        subst e
        refine fall_same rfl ?_
        simp only [hpc, ht, pcCost, List.length_cons, hDm, Nat.sub_zero]
        omega
  | call i =>
    rw [hpc] at hp
    simp only [hpc, Option.map_eq_some_iff] at e
    obtain ⟨s, e, rfl⟩ := e
    refine fall_set (i := i) (s := s) rfl (client_frame (s := S.view i) (working_inCall hp.2) e []).2.todo ?_
    have h2 := client_work e
    rw [enter_cost _ (working_step (s := S.view i) hp.2 e)]
    simp only [hpc, pcCost, MState.enter, MState.set]
    omega
  | init i row v m =>
    simp only [hpc] at e
    split at e
    · rename_i hm
      split at e
      · injection e with e
        subst e
        refine fall_same rfl ?_
        simp only [hpc, pcCost]
        omega
      · injection e with e
        subst e
        refine fall_set (i := ⟨m, hm⟩) (s := (S.view ⟨m, hm⟩).start) rfl rfl ?_
        have h2 := start_work (S.view ⟨m, hm⟩)
        have h3 := hcost ⟨m, hm⟩
        have h4 : (c - m) * callCost P = (c - (m + 1)) * callCost P + callCost P := by
          rw [show c - m = c - (m + 1) + 1 by omega, Nat.succ_mul]
        simp only [hpc, pcCost, MState.set]
        omega
    · injection e with e
      subst e
      refine fall_same rfl ?_
      simp only [hpc, pcCost]
      omega
  | header i row v =>
    rw [hpc] at hp
    simp only [hpc] at e
    injection e with e
    subst e
    have hs : startsBlocks (P i) (S.view i) row = false := by
      unfold startsBlocks
      have : (S.view i).rowsPerBlock ≠ 0 := by
        rw [show (S.view i).rowsPerBlock = S.rowsPerBlock from rfl, hp.1]; exact hp.2.1
      simp [this]
    refine fall_set (i := i) (s := State.put (P i) (S.view i) row v) rfl (put_frame hs []).2.todo ?_
    have h2 := call_work (p := P i) (S.view i) (.put row v) (by rw [view_client, (hp.2.2 i).1]; rfl)
    simp only [State.call] at h2
    have h3 := hcost i
    rw [enter_cost _ (working_put hs (hp.2.2 i).1)]
    simp only [hpc, pcCost, MState.enter, MState.set]
    omega
  | close m =>
    rw [hpc] at hp
    simp only [hpc] at e
    split at e
    · rename_i hm
      injection e with e
      subst e
      refine fall_set (i := ⟨m, hm⟩) (s := State.call (P ⟨m, hm⟩) (S.view ⟨m, hm⟩) .close) rfl
        (close_frame (S.view ⟨m, hm⟩) []).2.todo ?_
      have h2 := call_work (p := P ⟨m, hm⟩) (S.view ⟨m, hm⟩) .close
        (by rw [view_client, (hp ⟨m, hm⟩).2 le_rfl]; rfl)
      have h3 := hcost ⟨m, hm⟩
      have h4 : (c - m) * callCost P = (c - (m + 1)) * callCost P + callCost P := by
        rw [show c - m = c - (m + 1) + 1 by omega, Nat.succ_mul]
      simp only [hpc, pcCost, MState.set]
      omega
    · injection e with e
      subst e
      refine fall_same rfl ?_
      simp only [hpc, pcCost]
      omega
  | closing i =>
    rw [hpc] at hp
    simp only [hpc, Option.map_eq_some_iff] at e
    obtain ⟨s, e, rfl⟩ := e
    refine fall_set (i := i) (s := s) rfl (client_frame (s := S.view i) (stopping_inCall hp.1) e []).2.todo ?_
    have h2 := client_work e
    simp only [hpc, MState.set]
    split <;> simp only [pcCost] <;> omega
  | closed => rw [hpc] at e; cases e
  | failed => rw [hpc] at e; cases e
  | unsupported => rw [hpc] at e; cases e

theorem mstep_work {S S' : MState P} {l : MLabel P} (hp : Place S) (e : mstep S l = some S') :
    mwork S' + (if l.real then 1 else 0) ≤ mwork S + (if l.real then 0 else 1) := by
  have key : ∀ (i : Fin c) (s : State (W i) K (P i).threads) (a b : Nat), s.todo = [] → work s + a ≤ work (S.view i) + b →
      mwork (S.set i s) + a ≤ mwork S + b := by
    intro i s a b ht h
    have h1 := sum_set (S := S) (S' := S.set i s) (i := i) rfl ht
    unfold mwork
    show (c * callCost P + callCost P + 2) * S.todo.length + pcCost P S.pc + _ + a ≤ _
    omega
  cases l with
  | client junk =>
    have := mclient_work hp e
    simp only [MLabel.real, if_true]
    omega
  | thread i t =>
    simp only [mstep, Option.map_eq_some_iff] at e
    obtain ⟨s, e, rfl⟩ := e
    simp only [MLabel.real, if_true]
    exact key i s 1 0 (thread_shared e).2.2.2 (thread_work e)
  | spuriousThread i t =>
    simp only [mstep, Option.map_eq_some_iff] at e
    obtain ⟨s, e, rfl⟩ := e
    simp only [MLabel.real, Bool.false_eq_true, if_false]
    have h1 := step_work e
    simp only [Label.real, Label.spurious, Bool.false_eq_true, if_false, if_true] at h1
    injection e with e
    exact key i s 0 1 (by rw [← e]; rfl) h1
  | spuriousClient i =>
    simp only [mstep, Option.map_eq_some_iff] at e
    obtain ⟨s, e, rfl⟩ := e
    simp only [MLabel.real, Bool.false_eq_true, if_false]
    have h1 := step_work e
    simp only [Label.real, Label.spurious, Bool.false_eq_true, if_false, if_true] at h1
    injection e with e
    exact key i s 0 1 (by rw [← e]; rfl) h1

/-- Along every schedule, the number of steps of the client and the threads is bounded by the work of the program plus
the number of spurious wake-ups. -/
theorem multi_steps_bounded (hn : ∀ i, 0 < (P i).threads) {S : MState P} {ls : List (MLabel P)}
    (e : mrun (minitial P k rows file nB prog) ls = some S) :
    ls.countP (·.real) + mwork S ≤ mwork (minitial P k rows file nB prog) + ls.countP (fun l => !l.real) := by
  have gen : ∀ (ls : List (MLabel P)) (S0 S : MState P), Good k rows file nB prog S0 → mrun S0 ls = some S →
      ls.countP (·.real) + mwork S ≤ mwork S0 + ls.countP (fun l => !l.real) := by
    intro ls
    induction ls with
    | nil => intro S0 S _ e; injection e with e; subst e; simp
    | cons l ls ih =>
      intro S0 S hg e
      simp only [mrun] at e
      cases h1 : mstep S0 l with
      | none => rw [h1] at e; cases e
      | some S1 =>
        rw [h1] at e
        have h2 := ih S1 S (good_step hn hg h1) e
        have h3 := mstep_work hg.place h1
        rw [List.countP_cons, List.countP_cons]
        cases hl : l.real <;> simp only [hl, if_true, Bool.false_eq_true, if_false, Bool.not_true, Bool.not_false] at h3 ⊢ <;> omega
  exact gen ls _ S good_initial e

/-- From every reachable state, steps of the client and the threads alone lead to a state in which the program is
over. -/
theorem multi_can_finish (hn : ∀ i, 0 < (P i).threads) (hm : ∀ i, 1 ≤ (P i).maxCache) {S : MState P}
    (h : MReachable (minitial P k rows file nB prog) S) (junk : (i : Fin c) → Nat → W i) :
    ∃ ls S', (∀ l ∈ ls, MLabel.real l = true) ∧ mrun S ls = some S' ∧ MFinished S' := by
  induction hw : mwork S using Nat.strong_induction_on generalizing S with
  | _ w ih =>
    have go : ∀ l S1, MLabel.real l = true → mstep S l = some S1 →
        ∃ ls S', (∀ l ∈ ls, MLabel.real l = true) ∧ mrun S ls = some S' ∧ MFinished S' := by
      intro l S1 hl h1
      have hlt : mwork S1 < w := by
        have := mstep_work (good_reachable hn h).place h1
        simp only [hl, if_true] at this
        omega
      have hr : MReachable (minitial P k rows file nB prog) S1 := by
        obtain ⟨ls, e⟩ := h
        refine ⟨ls ++ [l], ?_⟩
        have : ∀ (ls : List (MLabel P)) S0, mrun S0 ls = some S → mrun S0 (ls ++ [l]) = some S1 := by
          intro ls
          induction ls with
          | nil => intro S0 h0; injection h0 with h0; subst h0; simp only [List.nil_append, mrun, h1, Option.bind_some]
          | cons l' ls ih =>
            intro S0 h0
            simp only [mrun, List.cons_append] at h0 ⊢
            cases h2 : mstep S0 l' with
            | none => rw [h2] at h0; cases h0
            | some S2 => rw [h2] at h0; exact ih S2 h0
        exact this ls _ e
      obtain ⟨ls, S', h2, h3, h4⟩ := ih _ hlt hr rfl
      refine ⟨l :: ls, S', ?_, ?_, h4⟩
      · intro l' hl'
        rcases List.mem_cons.mp hl' with rfl | hl'
        · exact hl
        · exact h2 l' hl'
      · simp only [mrun, h1]
        exact h3
    cases hc : mstep S (.client junk) with
    | some S1 => exact go _ S1 rfl hc
    | none =>
      by_cases ht : ∃ i t, mstep S (.thread i t) ≠ none
      · obtain ⟨i, t, hi'⟩ := ht
        obtain ⟨S1, h1⟩ := Option.ne_none_iff_exists'.mp hi'
        exact go _ S1 rfl h1
      · push Not at ht
        exact ⟨[], S, by simp, rfl, multi_no_deadlock hn hm h junk hc ht⟩

/-! ## Examples -/

/-- Two columns with two rows per block and one encoder thread each. -/
def pair (_ : Fin 2) : Params Nat Nat := demo

/-- Four rows in each of two columns; the put of row 2 to column 0 fixes the rows per block. -/
def pairProgram : List (MOp fun _ : Fin 2 => Nat) :=
  [.put 0 0 20, .put 1 0 30, .put 0 1 21, .put 1 1 31, .put 0 2 22, .put 1 2 32, .put 1 3 33, .put 0 3 23, .close]

/-- The rows that are put. -/
def pairRows (i : Fin 2) (r : Nat) : Nat := 20 + 10 * i.val + r

example : ∀ i, Whole 2 (pairRows i) 4 0 (ops i pairProgram) := by
  intro i
  match i with
  | 0 => simp [pairProgram, ops, Whole, pairRows]
  | 1 => simp [pairProgram, ops, Whole, pairRows]

theorem mreachable_of_run {S0 : MState P} {ls : List (MLabel P)} {A : Type} {g : MState P → A} {a : A}
    (h : (mrun S0 ls).map g = some a) : ∃ S, MReachable S0 S ∧ g S = a := by
  cases hr : mrun S0 ls with
  | none => rw [hr] at h; cases h
  | some S =>
    rw [hr] at h
    injection h with h
    exact ⟨S, ⟨ls, hr⟩, h⟩

/-- A step of the client. Not in the code. -/
def mc : MLabel pair := .client fun _ _ => 0
/-- A step of the thread of column 0. Not in the code. -/
def t0 : MLabel pair := .thread 0 (0 : Fin 1)
/-- A step of the thread of column 1. Not in the code. -/
def t1 : MLabel pair := .thread 1 (0 : Fin 1)

/-- All columns are closed. Not in the code. -/
def isClosedM : MPC W → Bool
  | .closed => true
  | _ => false

/-- The client is about to write the header. Not in the code. -/
def isHeader : MPC W → Bool
  | .header .. => true
  | _ => false

/-- The client is at `writeHeader`, and the thread of column 0 already runs. -/
example : ∃ S, MReachable (minitial pair 0 0 (fun _ _ => none) 0 pairProgram) S ∧
    (isHeader S.pc, S.rowsPerBlock) = (true, 2) :=
  mreachable_of_run (ls := [mc, mc, mc, mc, mc, mc, t0, mc, mc]) (by decide +kernel)

/-- All columns are closed. -/
example : ∃ S, MReachable (minitial pair 0 0 (fun _ _ => none) 0 pairProgram) S ∧
    (isClosedM S.pc, (S.cols 0).writes.map (·.1), (S.cols 1).writes.map (·.1)) = (true, [0, 1], [0, 1]) :=
  mreachable_of_run (ls := [mc, mc, mc, mc, mc, mc, mc, mc, mc, mc, mc, mc, mc, mc, mc, mc, mc, mc, mc, mc, t0, t0, t0,
    mc, t0, t0, t0, mc, t0, mc, mc, mc, mc, t1, t1, t1, mc, t1, t1, t1, mc, t1, mc, mc]) (by decide +kernel)

/-- A reopened table with one block of two rows in each column, of which one row per column is changed. -/
example : ∀ i, Updates 2 1 [] noBlock
    (ops i ([.get 0 0, .put 0 1 5, .get 1 1, .put 1 0 6, .get 0 0, .close] : List (MOp fun _ : Fin 2 => Nat))) := by
  intro i
  match i with
  | 0 => simp [ops, Updates, noBlock]
  | 1 => simp [ops, Updates, noBlock]

end Dysco.Multi
