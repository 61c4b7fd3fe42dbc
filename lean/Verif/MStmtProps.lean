import Verif.MStmtLemmas

/-!
# C129: the steps of `MultiModel` are enough

Every run of the statement by statement model of `MStmtModel`, with several columns, gives what some run of `MultiModel`
gives, so that the theorems about those runs hold for it.
-/

namespace Dysco.MStmt
open Col Multi Stmt
variable {V K : Type} {n c : Nat} {W : Fin c → Type}
variable {P : (i : Fin c) → Params (W i) K} {k : K} {rows nB : Nat} {file : (i : Fin c) → Nat → Option (Rows (W i))}
  {prog : List (MOp W)}

section step
variable {F F' : MSState P} {S : MState P} {t : (i : Fin c) → Fin (P i).threads → ThreadPC (W i)}

theorem inCall_shared {p : Params V K} {s s' : State V K p.threads} {junk : Nat → V} (h : inCall s.client = true)
    (e : step p s (.client junk) = some s') : Shared s s' := (client_frame h e []).2

theorem starts_known {p : Params V K} {s : State V K n} {op : Op V} (h : s.rowsPerBlock ≠ 0) : starts p s op = false := by
  cases hs : starts p s op with
  | false => rfl
  | true => exact absurd (starts_rows hs) h

theorem msim_client (hn : ∀ i, 0 < (P i).threads) (h : MRel k rows file nB prog F S t) {junk : (i : Fin c) → Nat → W i}
    (e : F.client junk = some F') : MSim k rows file nB prog F F' S (.client junk) := by
  have hp := h.good.place
  unfold Place at hp
  have hpc := h.pc
  unfold MSState.client at e
  cases hc : F.pc with
  | idle =>
    rw [hc] at hpc
    rw [hpc] at hp
    simp only at hp
    simp only [hc] at e
    cases htd : F.todo with
    | nil => simp only [htd] at e; cases e
    | cons op rest =>
      have hst : S.todo = op :: rest := by rw [h.todo, htd]
      simp only [htd] at e
      cases op with
      | put i row v =>
        simp only at e
        have hfi : (F.view i).client = .idle := idle_of_abs (t := t i) (by rw [← h.abs i]; exact hp i)
        have hsb : startsBlocks (P i) (S.view i) row = startsBlocks (P i) (F.view i).d row := by
          rw [h.abs i]
          unfold startsBlocks SState.abs
          simp only [hfi, CPC.buf]
        split at e
        · rename_i h1
          injection e with e
          subst e
          have hm : S.client junk = some { S with todo := rest, rowsPerBlock := row, pc := .init i row v 0 } := by
            unfold MState.client
            simp only [hpc, hst, hsb, h1, if_true]
          exact msim_pc hn h hm rfl rfl rfl rfl rfl rfl rfl (.inr hp)
        · rename_i h1
          injection e with e
          subst e
          have h2 : startsBlocks (P i) (S.view i) row = false := by rw [hsb]; exact Bool.eq_false_iff.mpr h1
          have hm : S.client junk = some (MState.enter { S with todo := rest } i (State.put (P i) (S.view i) row v)) := by
            unfold MState.client
            simp only [hpc, hst, h2, Bool.false_eq_true, if_false]
          refine msim_call (op := .put row v) hn h (hp i) (starts_of (Bool.eq_false_iff.mpr h1)) hm rfl rfl rfl
            (put_frame h2 []).2 rfl rfl rfl rfl (fun t' ht' => ?_)
          show _ = callPC i (enterCall (P i) (F.view i) (.put row v)).client
          rw [callPC_abs { S with todo := rest } i _ t', ← ht']
          rfl
      | get i row =>
        simp only at e
        injection e with e
        subst e
        have hm : S.client junk = some (MState.enter { S with todo := rest } i (State.get (S.view i) row)) := by
          unfold MState.client
          simp only [hpc, hst]
        refine msim_call (op := .get row) hn h (hp i) rfl hm rfl rfl rfl (get_frame _ _ []).2 rfl rfl rfl rfl
          (fun t' ht' => ?_)
        show _ = callPC i (enterCall (P i) (F.view i) (.get row)).client
        rw [callPC_abs { S with todo := rest } i _ t', ← ht']
        rfl
      | close =>
        simp only at e
        injection e with e
        subst e
        have hm : S.client junk = some { S with todo := rest, pc := .close 0 } := by
          unfold MState.client
          simp only [hpc, hst]
        exact msim_pc hn h hm rfl rfl rfl rfl rfl rfl h.rpb (.inl rfl)
  | call i =>
    rw [hc] at hpc
    rw [hpc] at hp
    simp only at hp
    simp only [hc, Option.map_eq_some_iff] at e
    obtain ⟨f', e, rfl⟩ := e
    obtain ⟨hok, hsim⟩ := sim_client (h.ok i) (h.thr i) (mcore hn h i) (fun hr => moff hn h i (.inl hr)) e
    refine msim_col (L := .client junk) hn h rfl hok hsim (fun f => callPC i f.client) (fun s => (S.enter i s).pc)
      (fun f t' => callPC_abs S i f t') ?_ ?_ (fun s hs => ?_) rfl
    · rw [hpc]
      have h2 : working (S.view i).client = true := hp.2
      unfold MState.enter
      simp only
      split <;> (rename_i h3; first | (rw [h3] at h2; cases h2) | rfl)
    · show S.client junk = _
      unfold MState.client
      simp only [hpc]
      rfl
    · have h3 := inCall_shared (working_inCall (show working (S.view i).client = true from hp.2)) hs
      exact ⟨h3.rpb, h3.locked, h3.todo⟩
  | init i row v m =>
    rw [hc] at hpc
    rw [hpc] at hp
    simp only at hp
    simp only [hc] at e
    by_cases hk : m < c
    · rw [dif_pos hk] at e
      have hca : (S.cols ⟨m, hk⟩).cache = (F.cols ⟨m, hk⟩).d.cache := by
        have := congrArg State.cache (h.abs ⟨m, hk⟩)
        exact this
      split at e
      · rename_i h1
        injection e with e
        subst e
        have hm : S.client junk = some { S with pc := .failed } := by
          unfold MState.client
          simp only [hpc]
          rw [dif_pos hk, if_pos (by rw [hca]; exact h1)]
        exact msim_pc hn h hm rfl h.todo rfl rfl rfl rfl h.rpb (.inl rfl)
      · rename_i h1
        injection e with e
        subst e
        have hm : S.client junk = some { S.set ⟨m, hk⟩ (S.view ⟨m, hk⟩).start with pc := .init i row v (m + 1) } := by
          unfold MState.client
          simp only [hpc]
          rw [dif_pos hk, if_neg (by rw [hca]; exact h1)]
        have hns := moff hn h ⟨m, hk⟩ (.inr (by unfold uninit; rw [hpc]; simp))
        have hdone := (mcore hn h ⟨m, hk⟩).idle hns
        have hfd : ∀ j, (F.view ⟨m, hk⟩).threads j = .done := by
          intro j
          have h4 := h.thr ⟨m, hk⟩ j
          rw [show t ⟨m, hk⟩ j = .done from hdone j] at h4
          exact tr_done h4
        have hfi : (F.view ⟨m, hk⟩).client = .idle := by
          refine idle_of_abs (t := t ⟨m, hk⟩) ?_
          rw [← h.abs ⟨m, hk⟩]
          exact hp.2.2 _ |>.1
        have hmx : (F.view ⟨m, hk⟩).mutex = none := by
          rcases hx : (F.view ⟨m, hk⟩).mutex with _ | (_ | j)
          · rfl
          · have := (h.ok ⟨m, hk⟩).mc.mpr hx
            rw [hfi] at this
            cases this
          · have := ((h.ok ⟨m, hk⟩).mt j).mpr hx
            rw [hfd j] at this
            cases this
        refine ⟨_, Function.update t ⟨m, hk⟩ (fun _ => .head), mrel_set (f' := startThreads (F.view ⟨m, hk⟩)) h ?_ ?_ rfl rfl
          rfl rfl rfl rfl (good_step (l := .client junk) hn h.good hm) rfl h.todo rfl ?_ (fun j hj => ?_) ?_, .inr hm⟩
        · refine ⟨fun j => ?_, ?_, fun j => trivial, ?_⟩
          · change TPC.holds TPC.lock = true ↔ (F.view ⟨m, hk⟩).mutex = some (some j)
            rw [hmx]
            simp [TPC.holds]
          · exact (h.ok ⟨m, hk⟩).mc
          · change COK _ _ (F.view ⟨m, hk⟩).client
            rw [hfi]
            trivial
        · intro j
          rfl
        · show S.nBlocks = F.nBlocks
          exact h.nBlocks
        · exact set_same S _ hj
        · refine (view_set S rfl rfl rfl).trans ?_
          rw [h.abs ⟨m, hk⟩]
          unfold SState.abs State.start
          rw [(pend_none hmx).2, (pend_none (F := startThreads (F.view ⟨m, hk⟩)) hmx).2]
          rfl
    · rw [dif_neg hk] at e
      injection e with e
      subst e
      have hm : S.client junk = some { S with pc := .header i row v } := by
        unfold MState.client
        simp only [hpc]
        rw [dif_neg hk]
      exact msim_pc hn h hm rfl h.todo rfl rfl rfl rfl h.rpb (.inl rfl)
  | header i row v =>
    rw [hc] at hpc
    rw [hpc] at hp
    simp only at hp
    simp only [hc] at e
    injection e with e
    subst e
    have hr : S.rowsPerBlock ≠ 0 := by rw [hp.1]; exact hp.2.1
    have hm : S.client junk = some (S.enter i (State.put (P i) (S.view i) row v)) := by
      unfold MState.client
      simp only [hpc]
    have h2 : startsBlocks (P i) (S.view i) row = false := by
      unfold startsBlocks
      rw [show ((S.view i).rowsPerBlock == 0) = false from beq_eq_false_iff_ne.mpr hr]
      rfl
    refine msim_call (op := .put row v) hn h (hp.2.2 i).1 (starts_known (by rw [show (F.view i).d.rowsPerBlock = F.rowsPerBlock from rfl, ← h.rpb]; exact hr))
      hm rfl rfl rfl (put_frame h2 []).2 rfl rfl rfl h.todo (fun t' ht' => ?_)
    show _ = callPC i (enterCall (P i) (F.view i) (.put row v)).client
    rw [callPC_abs S i _ t', ← ht']
    rfl
  | close m =>
    rw [hc] at hpc
    rw [hpc] at hp
    simp only at hp
    simp only [hc] at e
    by_cases hk : m < c
    · rw [dif_pos hk] at e
      injection e with e
      subst e
      have hm : S.client junk =
          some { S.set ⟨m, hk⟩ (State.call (P ⟨m, hk⟩) (S.view ⟨m, hk⟩) .close) with pc := .closing ⟨m, hk⟩ } := by
        unfold MState.client
        simp only [hpc]
        rw [dif_pos hk]
      exact msim_call (op := .close) hn h ((hp ⟨m, hk⟩).2 le_rfl) rfl hm rfl rfl rfl (close_frame _ []).2 rfl rfl rfl h.todo
        (fun _ _ => rfl)
    · rw [dif_neg hk] at e
      injection e with e
      subst e
      have hm : S.client junk = some { S with pc := .closed } := by
        unfold MState.client
        simp only [hpc]
        rw [dif_neg hk]
      exact msim_pc hn h hm rfl h.todo rfl rfl rfl rfl h.rpb (.inl rfl)
  | closing i =>
    rw [hc] at hpc
    rw [hpc] at hp
    simp only at hp
    simp only [hc, Option.map_eq_some_iff] at e
    obtain ⟨f', e, rfl⟩ := e
    obtain ⟨hok, hsim⟩ := sim_client (h.ok i) (h.thr i) (mcore hn h i) (fun hr => moff hn h i (.inl hr)) e
    refine msim_col (L := .client junk) hn h rfl hok hsim (fun f => closePC i f.client) (fun s => closeAbs i s.client)
      (fun f t' => closePC_abs i f t') ?_ ?_ (fun s hs => ?_) rfl
    · rw [hpc]
      have h2 : stopping (S.view i).client = true := hp.1
      unfold closeAbs
      split <;> (rename_i h3; first | (rw [h3] at h2; cases h2) | rfl)
    · show S.client junk = _
      unfold MState.client
      simp only [hpc]
      refine congrArg (fun g => Option.map g (clientStep (P i) (S.view i) (junk i))) (funext fun s => ?_)
      cases s.client <;> rfl
    · have h3 := inCall_shared (stopping_inCall (show stopping (S.view i).client = true from hp.1)) hs
      exact ⟨h3.rpb, h3.locked, h3.todo⟩
  | closed => simp only [hc] at e; cases e
  | failed => simp only [hc] at e; cases e
  | unsupported => simp only [hc] at e; cases e

theorem msim_step (hn : ∀ i, 0 < (P i).threads) (h : MRel k rows file nB prog F S t) {l : MLabel P}
    (e : msstep F l = some F') :
    MSim k rows file nB prog F F' S l ∧ (l.real = false → F'.rank = F.rank) := by
  have key : ∀ {i : Fin c} {f' : SState (W i) K (P i).threads} {l' : Label (W i) (P i).threads} {l : MLabel P},
      l.real = l'.real → OK (P i) f' → Sim (P i) (F.view i) f' (t i) l' →
      mstep S l = (step (P i) (S.view i) l').map (S.set i) →
      (∀ s, step (P i) (S.view i) l' = some s → s.rowsPerBlock = S.rowsPerBlock ∧ s.locked = false ∧ s.todo = []) →
      F' = F.set i f' → MSim k rows file nB prog F F' S l := by
    intro i f' l' l h1 h2 h3 h4 h5 h6
    refine msim_col hn h h1 h2 h3 (fun _ => F.pc) (fun _ => S.pc) (fun _ _ => h.pc.symm) rfl ?_ h5 (by rw [h6]; rfl)
    rw [h4]
    rfl
  cases l with
  | client junk => exact ⟨msim_client hn h e, fun hr => by cases hr⟩
  | thread i j =>
    simp only [msstep, Option.map_eq_some_iff] at e
    obtain ⟨f', e, rfl⟩ := e
    obtain ⟨h1, h2⟩ := sim_thread (h.ok i) (h.thr i) (mcore hn h i) e
    refine ⟨key (l' := .thread j) rfl h1 h2 rfl (fun s hs => ?_) rfl, fun hr => by cases hr⟩
    have h3 := thread_shared hs
    exact ⟨h3.1, h3.2.2.1, h3.2.2.2⟩
  | spuriousThread i j =>
    simp only [msstep, Option.map_eq_some_iff] at e
    obtain ⟨f', e, rfl⟩ := e
    obtain ⟨h1, h2, h3⟩ := sim_env (h.ok i) (h.thr i) rfl e
    refine ⟨key (l' := .spuriousThread j) rfl h1 h2 rfl (fun s hs => ?_) rfl, fun _ => ?_⟩
    · injection hs with hs
      subst hs
      exact ⟨rfl, rfl, rfl⟩
    · have h4 := mrank_set (F := F) (F' := F.set i f') (i := i) (f := f') rfl
      omega
  | spuriousClient i =>
    simp only [msstep, Option.map_eq_some_iff] at e
    obtain ⟨f', e, rfl⟩ := e
    obtain ⟨h1, h2, h3⟩ := sim_env (h.ok i) (h.thr i) rfl e
    refine ⟨key (l' := .spuriousClient) rfl h1 h2 rfl (fun s hs => ?_) rfl, fun _ => ?_⟩
    · injection hs with hs
      subst hs
      exact ⟨rfl, rfl, rfl⟩
    · have h4 := mrank_set (F := F) (F' := F.set i f') (i := i) (f := f') rfl
      omega

end step

/-! ## Runs -/

theorem mrel_initial (hn : ∀ i, 0 < (P i).threads) :
    MRel k rows file nB prog (msinitial P k rows file nB prog) (minitial P k rows file nB prog)
      (fun i => ((minitial P k rows file nB prog).cols i).threads) := by
  refine ⟨good_initial, rfl, rfl, rfl, rfl, fun i => ?_, fun i j => ?_, fun i => ?_⟩
  · exact ok_frame (rel_initial (hn i) k rows (file i) nB []).ok rfl rfl rfl rfl rfl rfl rfl (.inl rfl)
  · simp only [MSState.view, msinitial, minitial, sinitial, initial]
    split <;> rfl
  · rfl

theorem mrel_run (hn : ∀ i, 0 < (P i).threads) {F F' : MSState P} {S : MState P}
    {t : (i : Fin c) → Fin (P i).threads → ThreadPC (W i)} (h : MRel k rows file nB prog F S t) {ls : List (MLabel P)}
    (e : msrun F ls = some F') :
    ∃ ls' S' t', ls'.Sublist ls ∧ mrun S ls' = some S' ∧ MRel k rows file nB prog F' S' t' := by
  induction ls generalizing F S t with
  | nil => injection e with e; subst e; exact ⟨[], S, t, .slnil, rfl, h⟩
  | cons l ls ih =>
    simp only [msrun] at e
    cases h1 : msstep F l with
    | none => rw [h1] at e; cases e
    | some F1 =>
      rw [h1] at e
      obtain ⟨⟨S1, t1, hr, h2⟩, _⟩ := msim_step hn h h1
      obtain ⟨ls', S', t', hsub, h3, h4⟩ := ih hr e
      rcases h2 with ⟨rfl, _⟩ | h2
      · exact ⟨ls', S', t', hsub.cons l, h3, h4⟩
      · exact ⟨l :: ls', S', t', hsub.cons_cons l, by simp only [mrun, h2]; exact h3, h4⟩

theorem mrel_reach (hn : ∀ i, 0 < (P i).threads) {ls : List (MLabel P)} {F : MSState P}
    (e : msrun (msinitial P k rows file nB prog) ls = some F) :
    ∃ S t, MReachable (minitial P k rows file nB prog) S ∧ MRel k rows file nB prog F S t := by
  obtain ⟨ls', S, t, _, h1, h2⟩ := mrel_run hn (mrel_initial hn) e
  exact ⟨S, t, ⟨ls', h1⟩, h2⟩

/-! ## C129 -/

theorem agree_of {F : SState V K n} {s : State V K n} {t : Fin n → ThreadPC V} (h : s = F.abs t) : Agree F s := by
  subst h
  refine ⟨rfl, rfl, rfl, rfl, rfl, rfl, rfl, rfl, rfl, rfl, fun h => ?_, fun h => ?_, fun h => ?_⟩
  · refine ⟨?_, ?_, rfl, ?_⟩
    · rw [client_abs (by rw [h]; rfl), h]; rfl
    · simp only [SState.abs, h, CPC.buf]
    · simp only [SState.abs, h, CPC.chg]
  · rw [client_abs (by rw [h]; rfl), h]; rfl
  · rw [client_abs (by rw [h]; rfl), h]; rfl

/-- Whatever the schedule of the statements of the client and the threads of all columns, some schedule of `MultiModel`
leads to the same; each step of it stands for one statement of the same client or thread, in the same order. -/
theorem mstatements_same (hn : ∀ i, 0 < (P i).threads) {ls : List (MLabel P)} {F : MSState P}
    (e : msrun (msinitial P k rows file nB prog) ls = some F) :
    ∃ ls' S, ls'.Sublist ls ∧ mrun (minitial P k rows file nB prog) ls' = some S ∧ S.pc = F.pc ∧ S.todo = F.todo ∧
      S.rowsPerBlock = F.rowsPerBlock ∧ S.nBlocks = F.nBlocks ∧ ∀ i, Agree (F.view i) (S.view i) := by
  obtain ⟨ls', S, t, hsub, h1, h2⟩ := mrel_run hn (mrel_initial hn) e
  exact ⟨ls', S, hsub, h1, h2.pc, h2.todo, h2.rpb, h2.nBlocks, fun i => agree_of (h2.abs i)⟩

/-- The statements between taking and releasing the mutex of a column are executed by one at a time. -/
theorem mone_holder (hn : ∀ i, 0 < (P i).threads) {ls : List (MLabel P)} {F : MSState P}
    (e : msrun (msinitial P k rows file nB prog) ls = some F) (i : Fin c) :
    (∀ j l, ((F.cols i).threads j).holds = true → ((F.cols i).threads l).holds = true → j = l) ∧
      ((F.cols i).client.holds = true → ∀ j, ((F.cols i).threads j).holds = false) := by
  obtain ⟨S, t, _, h2⟩ := mrel_reach hn e
  have hok := h2.ok i
  refine ⟨fun j l hj hl => ?_, fun hc j => ?_⟩
  · have h3 := (hok.mt j).mp hj
    rw [(hok.mt l).mp hl] at h3
    injection h3 with h3
    injection h3 with h3
    exact h3.symm
  · cases hj : ((F.cols i).threads j).holds with
    | false => rfl
    | true =>
      have h3 := (hok.mt j).mp hj
      rw [hok.mc.mp hc] at h3
      cases h3

theorem mclient_at (hn : ∀ i, 0 < (P i).threads) {ls : List (MLabel P)} {F : MSState P}
    (e : msrun (msinitial P k rows file nB prog) ls = some F) (i : Fin c) (h : (F.cols i).mutex = some none) :
    F.pc = .call i ∨ F.pc = .closing i := by
  obtain ⟨S, t, _, h2⟩ := mrel_reach hn e
  have hh : (F.view i).client.holds = true := (h2.ok i).mc.mpr h
  have hrest : resting (S.cols i).client = true → False := by
    intro hr
    have h3 : resting ((F.view i).abs (t i)).client = true := by rw [← h2.abs i]; exact hr
    have h4 : ((F.view i).abs (t i)).client = (F.view i).client.abs := by
      change (if (F.view i).pendC then _ else _) = _
      rw [(pend_client (F := F.view i) h).2]
      rfl
    rw [h4] at h3
    cases hc : (F.view i).client <;> rw [hc] at h3 hh <;> first
      | (cases hh; done)
      | cases h3
      | (rename_i k; cases k <;> cases h3)
  have hp := h2.good.place
  unfold Place at hp
  rw [h2.pc] at hp
  cases hpc : F.pc with
  | idle => rw [hpc] at hp; exact (hrest (by rw [hp i]; rfl)).elim
  | call j =>
    rw [hpc] at hp
    by_cases hj : i = j
    · rw [hj]; exact .inl rfl
    · exact (hrest (by rw [hp.1 i hj]; rfl)).elim
  | init j row v m => rw [hpc] at hp; exact (hrest (by rw [(hp.2.2 i).1]; rfl)).elim
  | header j row v => rw [hpc] at hp; exact (hrest (by rw [(hp.2.2 i).1]; rfl)).elim
  | close m =>
    rw [hpc] at hp
    rcases Nat.lt_or_ge i.val m with hm | hm
    · exact (hrest (by rw [(hp i).1 hm]; rfl)).elim
    · exact (hrest (by rw [(hp i).2 hm]; rfl)).elim
  | closing j =>
    rw [hpc] at hp
    rcases Nat.lt_trichotomy i.val j.val with hm | hm | hm
    · exact (hrest (by rw [(hp.2 i).1 hm]; rfl)).elim
    · rw [Fin.ext hm]; exact .inr rfl
    · exact (hrest (by rw [(hp.2 i).2 hm]; rfl)).elim
  | closed => rw [hpc] at hp; exact (hrest (by rw [hp i]; rfl)).elim
  | failed => rw [hpc] at hp; exact (hrest (hp.1 i)).elim
  | unsupported => rw [hpc] at hp; exact (hrest (hp.1 i)).elim

/-- The client holds the mutex of a column only in a call of that column, and never holds two. -/
theorem mclient_one (hn : ∀ i, 0 < (P i).threads) {ls : List (MLabel P)} {F : MSState P}
    (e : msrun (msinitial P k rows file nB prog) ls = some F) (i : Fin c) (h : (F.cols i).mutex = some none) :
    (F.pc = .call i ∨ F.pc = .closing i) ∧ ∀ j, (F.cols j).mutex = some none → j = i := by
  have h1 := mclient_at hn e i h
  refine ⟨h1, fun j hj => ?_⟩
  have h2 := mclient_at hn e j hj
  rcases h1 with h1 | h1 <;> rw [h1] at h2 <;> rcases h2 with h2 | h2 <;> cases h2 <;> rfl

/-- A thread never uses an item that is no longer in the cache of its column, and what it is about to write is what the
cache holds for the block. -/
theorem mnever_dangling (hn : ∀ i, 0 < (P i).threads) {ls : List (MLabel P)} {F : MSState P}
    (e : msrun (msinitial P k rows file nB prog) ls = some F) (i : Fin c) (j : Fin (P i).threads) :
    (∀ b, (F.cols i).threads j = .unlock b ∨ (F.cols i).threads j = .encode b ∨ (F.cols i).threads j = .relock b ∨
        (F.cols i).threads j = .erase b → ∃ r, (b, ⟨r, true⟩) ∈ (F.cols i).d.cache) ∧
    (∀ b r, (F.cols i).threads j = .write b r → (b, ⟨r, true⟩) ∈ (F.cols i).d.cache) ∧
    (F.cols i).threads j ≠ .dangling := by
  obtain ⟨S, t, _, h2⟩ := mrel_reach hn e
  have hc := mcore hn h2 i
  have h3 := h2.thr i j
  refine ⟨fun b h4 => ?_, fun b r h4 => ?_, ?_⟩
  · rcases h4 with h4 | h4 | h4 | h4
    · rw [show (F.view i).threads j = _ from h4] at h3
      obtain ⟨r, h3⟩ := h3
      exact ⟨r, hc.encoding j b r h3⟩
    · rw [show (F.view i).threads j = _ from h4] at h3
      obtain ⟨r, h3⟩ := h3
      exact ⟨r, hc.encoding j b r h3⟩
    · rw [show (F.view i).threads j = _ from h4] at h3; exact hc.writing j b h3
    · rw [show (F.view i).threads j = _ from h4] at h3; exact hc.writing j b h3
  · rw [show (F.view i).threads j = _ from h4] at h3; exact hc.encoding j b r h3
  · intro h4; rw [show (F.view i).threads j = _ from h4] at h3; exact h3

/-! ### No deadlock -/

theorem rest_of_abs {p : Params V K} {f : SState V K p.threads} {t : Fin p.threads → ThreadPC V} {junk : Nat → V}
    (h : resting (f.abs t).client = true) (hd : f.d.todo = []) : f.clientStep p junk = none := by
  have h' : resting (if f.pendC then f.client.abs.wake else f.client.abs) = true := h
  unfold SState.clientStep
  cases hc : f.client <;> rw [hc] at h' <;> cases hp : f.pendC <;> rw [hp] at h' <;> first
    | rfl
    | (simp only [hd]; done)
    | cases h'
    | (rename_i k; cases k <;> cases h')

theorem tr_waits {pc : TPC V} (h : TR false pc .wait) : pc = .wait := by
  cases pc with
  | wait => rfl
  | scan again k => cases again <;> cases h
  | missing again => cases again <;> cases h
  | found again k => cases again <;> cases h
  | unlock b => obtain ⟨_, h⟩ := h; cases h
  | encode b => obtain ⟨_, h⟩ := h; cases h
  | dangling => exact h.elim
  | _ => cases h

theorem mstuck {F : MSState P} {S : MState P} {t : (i : Fin c) → Fin (P i).threads → ThreadPC (W i)}
    (h : MRel k rows file nB prog F S t) {junk : (i : Fin c) → Nat → W i} (hc : msstep F (.client junk) = none)
    (hs : ∀ i j, msstep F (.thread i j) = none) :
    (∀ i, (F.cols i).mutex = none) ∧ mstep S (.client junk) = none ∧ ∀ i j, mstep S (.thread i j) = none := by
  have hp := h.good.place
  unfold Place at hp
  rw [h.pc] at hp
  have hc' : F.client junk = none := hc
  unfold MSState.client at hc'
  have hthr : ∀ i j, (F.view i).threadStep j = none := by
    intro i j
    have h1 := hs i j
    simpa only [msstep, Option.map_eq_none_iff] using h1
  have hrest : ∀ i, resting (S.cols i).client = true → (F.view i).clientStep (P i) (junk i) = none := by
    intro i hr
    refine rest_of_abs (t := t i) ?_ rfl
    rw [← h.abs i]
    exact hr
  have hcl : ∀ i, (F.view i).clientStep (P i) (junk i) = none := by
    intro i
    cases hpc : F.pc with
    | idle => rw [hpc] at hp; exact hrest i (by rw [hp i]; rfl)
    | call j =>
      rw [hpc] at hp
      by_cases hj : i = j
      · subst hj
        simp only [hpc] at hc'
        simpa only [Option.map_eq_none_iff] using hc'
      · exact hrest i (by rw [hp.1 i hj]; rfl)
    | init j row v m => rw [hpc] at hp; exact hrest i (by rw [(hp.2.2 i).1]; rfl)
    | header j row v => rw [hpc] at hp; exact hrest i (by rw [(hp.2.2 i).1]; rfl)
    | close m =>
      rw [hpc] at hp
      rcases Nat.lt_or_ge i.val m with hm | hm
      · exact hrest i (by rw [(hp i).1 hm]; rfl)
      · exact hrest i (by rw [(hp i).2 hm]; rfl)
    | closing j =>
      rw [hpc] at hp
      rcases Nat.lt_trichotomy i.val j.val with hm | hm | hm
      · exact hrest i (by rw [(hp.2 i).1 hm]; rfl)
      · have hj : i = j := Fin.ext hm
        subst hj
        simp only [hpc] at hc'
        simpa only [Option.map_eq_none_iff] using hc'
      · exact hrest i (by rw [(hp.2 i).2 hm]; rfl)
    | closed => rw [hpc] at hp; exact hrest i (by rw [hp i]; rfl)
    | failed => rw [hpc] at hp; exact hrest i (hp.1 i)
    | unsupported => rw [hpc] at hp; exact hrest i (hp.1 i)
  have hst := fun i => stuck_coarse (h.ok i) (h.thr i) (hcl i) (hthr i)
  refine ⟨fun i => (hst i).1, ?_, fun i j => ?_⟩
  · show S.client junk = none
    have hcol : ∀ i, clientStep (P i) (S.view i) (junk i) = none := by
      intro i
      have h1 := (hst i).2.1
      rw [← h.abs i] at h1
      exact h1
    unfold MState.client
    rw [h.pc]
    cases hpc : F.pc with
    | idle =>
      simp only [hpc] at hc'
      simp only
      rw [h.todo]
      cases htd : F.todo with
      | nil => rfl
      | cons op rest =>
        simp only [htd] at hc'
        cases op with
        | put i row v => simp only at hc'; split at hc' <;> cases hc'
        | get i row => cases hc'
        | close => cases hc'
    | call i => simp only [hcol i, Option.map_none]
    | init i row v m =>
      simp only [hpc] at hc'
      split at hc'
      · split at hc' <;> cases hc'
      · cases hc'
    | header i row v => simp only [hpc] at hc'; cases hc'
    | close m =>
      simp only [hpc] at hc'
      split at hc' <;> cases hc'
    | closing i => simp only [hcol i, Option.map_none]
    | closed => rfl
    | failed => rfl
    | unsupported => rfl
  · have h1 := (hst i).2.2 j
    rw [← h.abs i] at h1
    have h2 : threadStep (S.view i) j = none := h1
    simp only [mstep, h2, Option.map_none]

/-- All work is done. -/
def MSFinished (F : MSState P) : Prop :=
  (F.pc = .closed ∨ F.pc = .failed ∨ F.pc = .unsupported ∨ F.pc = .idle ∧ F.todo = []) ∧
    ∀ i, (F.cols i).mutex = none ∧
      ((F.cols i).d.started = true → (F.cols i).d.cache = [] ∧ ∀ t, (F.cols i).threads t = .wait) ∧
      ((F.cols i).d.started = false → ∀ t, (F.cols i).threads t = .done)

theorem mfinished_of_stuck (hn : ∀ i, 0 < (P i).threads) (hm : ∀ i, 1 ≤ (P i).maxCache) {F : MSState P} {S : MState P}
    {t : (i : Fin c) → Fin (P i).threads → ThreadPC (W i)} (hr : MReachable (minitial P k rows file nB prog) S)
    (h : MRel k rows file nB prog F S t) {junk : (i : Fin c) → Nat → W i} (hc : msstep F (.client junk) = none)
    (hs : ∀ i j, msstep F (.thread i j) = none) : MSFinished F := by
  obtain ⟨h1, h2, h3⟩ := mstuck h hc hs
  have h4 := multi_no_deadlock hn hm hr junk h2 h3
  refine ⟨?_, fun i => ⟨h1 i, fun hb => ?_, fun hb j => ?_⟩⟩
  · have h5 := h4.1
    rw [h.pc, h.todo] at h5
    exact h5
  · have e1 := congrArg State.started (h.abs i)
    have e2 := congrArg State.cache (h.abs i)
    have e3 := congrArg State.threads (h.abs i)
    obtain ⟨h6, h7⟩ := (h4.2 i).1 (e1.trans hb)
    refine ⟨e2.symm.trans h6, fun j => ?_⟩
    have h8 := h.thr i j
    rw [(pend_none (F := F.view i) (h1 i)).1, show t i j = .wait from (congrFun e3 j).symm.trans (h7 j)] at h8
    exact tr_waits h8
  · have e1 := congrArg State.started (h.abs i)
    have e3 := congrArg State.threads (h.abs i)
    have h8 := h.thr i j
    rw [show t i j = .done from (congrFun e3 j).symm.trans ((h4.2 i).2 (e1.trans hb) j)] at h8
    exact tr_done h8

/-- Whenever neither the client nor any thread of any column can execute a statement, all work is done. -/
theorem mstatements_no_deadlock (hn : ∀ i, 0 < (P i).threads) (hm : ∀ i, 1 ≤ (P i).maxCache) {ls : List (MLabel P)}
    {F : MSState P} (e : msrun (msinitial P k rows file nB prog) ls = some F) (junk : (i : Fin c) → Nat → W i)
    (hc : msstep F (.client junk) = none) (hs : ∀ i j, msstep F (.thread i j) = none) : MSFinished F := by
  obtain ⟨S, t, h1, h2⟩ := mrel_reach hn e
  exact mfinished_of_stuck hn hm h1 h2 hc hs

/-! ### What is in the file -/

/-- C90 for the statements: a new table to which rows are put column by column, in any order of the columns, and that is
then closed. -/
theorem mstatements_whole (hn : ∀ i, 0 < (P i).threads) (hmc : ∀ i, 1 ≤ (P i).maxCache) (hc : 0 < c) {m R : Nat}
    {v : (i : Fin c) → Nat → W i} {ls : List (MLabel P)} {F : MSState P} (hm : 0 < m) (hR0 : 0 < R) (hR : R ≤ noBlock)
    (hsame : ∀ i r, 0 < r → r < m → (P i).differs ((P i).key r) ((P i).key 0) = false)
    (hdiff : ∀ i, m < R → (P i).differs ((P i).key m) ((P i).key 0) = true)
    (hrows : rows = m ∨ rows = 0 ∧ m < R) (hw : ∀ i, Whole m (v i) R 0 (ops i prog))
    (e : msrun (msinitial P k rows (fun _ _ => none) nB prog) ls = some F) :
    F.pc ≠ .failed ∧ F.pc ≠ .unsupported ∧
    (∀ junk, msstep F (.client junk) = none → (∀ i t, msstep F (.thread i t) = none) → F.pc = .closed) ∧
    (F.pc = .closed → ∀ i b,
      (b * m < R → ∃ r, (F.cols i).d.file b = some r ∧ ofBlock (F.cols i).d.writes b = [r] ∧
        Filled m (v i) b (rowsIn m R b) r) ∧
      (R ≤ b * m → (F.cols i).d.file b = none)) := by
  obtain ⟨S, t, h1, h2⟩ := mrel_reach hn e
  obtain ⟨a1, a2, a3, a4⟩ := multi_whole hn hmc hc hm hR0 hR hsame hdiff hrows hw h1
  rw [h2.pc] at a1 a2 a3 a4
  refine ⟨a1, a2, fun junk hj hs => ?_, fun hcl i b => ?_⟩
  · obtain ⟨_, h4, h5⟩ := mstuck h2 hj hs
    exact a3 junk h4 h5
  · have e1 : (S.cols i).file = (F.cols i).d.file := by
      have := congrArg State.file (h2.abs i)
      exact this
    have e2 : (S.cols i).writes = (F.cols i).d.writes := by
      have := congrArg State.writes (h2.abs i)
      exact this
    have h6 := a4 hcl i b
    rw [e1, e2] at h6
    exact h6

/-- C90 for the statements: an existing table that is read and changed in any order, and closed. -/
theorem mstatements_update (hn : ∀ i, 0 < (P i).threads) (hmc : ∀ i, 1 ≤ (P i).maxCache) (hc : 0 < c) {m N : Nat}
    {blocks : (i : Fin c) → Nat → Rows (W i)} {ls : List (MLabel P)} {F : MSState P} (hm : 0 < m) (hN : N ≤ noBlock)
    (hNB : N ≤ nB) (hf : ∀ i b, b < N → file i b = some (blocks i b)) (hw : ∀ i, Updates m N [] noBlock (ops i prog))
    (e : msrun (msinitial P k m file nB prog) ls = some F) :
    F.pc ≠ .failed ∧ F.pc ≠ .unsupported ∧
    (∀ junk, msstep F (.client junk) = none → (∀ i t, msstep F (.thread i t) = none) → F.pc = .closed) ∧
    (F.pc = .closed → ∀ i,
      (F.cols i).d.outs = ((Mem.opened (blocks i)).run (P i).dec m (ops i prog)).outs ∧
      (∀ b, b < N → (F.cols i).d.file b = some (((Mem.opened (blocks i)).run (P i).dec m (ops i prog)).blocks b)) ∧
      ∀ b, ofBlock (F.cols i).d.writes b = ofBlock ((Mem.opened (blocks i)).run (P i).dec m (ops i prog)).log b) := by
  obtain ⟨S, t, h1, h2⟩ := mrel_reach hn e
  obtain ⟨a1, a2, a3, a4⟩ := multi_update hn hmc hc hm hN hNB hf hw h1
  rw [h2.pc] at a1 a2 a3 a4
  refine ⟨a1, a2, fun junk hj hs => ?_, fun hcl i => ?_⟩
  · obtain ⟨_, h4, h5⟩ := mstuck h2 hj hs
    exact a3 junk h4 h5
  · have e1 : (S.cols i).file = (F.cols i).d.file := by
      have := congrArg State.file (h2.abs i)
      exact this
    have e2 : (S.cols i).writes = (F.cols i).d.writes := by
      have := congrArg State.writes (h2.abs i)
      exact this
    have e3 : (S.cols i).outs = (F.cols i).d.outs := by
      have := congrArg State.outs (h2.abs i)
      exact this
    have h6 := a4 hcl i
    rw [e1, e2, e3] at h6
    exact h6

/-! ### Termination -/

/-- A bound for the number of statements that a step of `MultiModel`, and what comes before it, takes. -/
def mperStep (P : (i : Fin c) → Params (W i) K) : Nat := ∑ i, ((P i).threads * ((P i).maxCache + 5) + 6)

theorem mrank_le (F : MSState P) : F.rank ≤ mperStep P := Finset.sum_le_sum fun _ _ => rank_le _ _

/-- What remains to be done. -/
def msmeasure (F : MSState P) (S : MState P) : Nat := mwork S * (mperStep P + 1) + F.rank

theorem mmeasure_step (hn : ∀ i, 0 < (P i).threads) {F F' : MSState P} {S : MState P}
    {t : (i : Fin c) → Fin (P i).threads → ThreadPC (W i)} (h : MRel k rows file nB prog F S t) {l : MLabel P}
    (e : msstep F l = some F') :
    ∃ S' t', MRel k rows file nB prog F' S' t' ∧ (S' = S ∨ mstep S l = some S') ∧
      msmeasure F' S' + (if l.real then 1 else 0) ≤ msmeasure F S + (if l.real then 0 else mperStep P + 1) := by
  obtain ⟨⟨S', t', hr, h1⟩, h2⟩ := msim_step hn h e
  refine ⟨S', t', hr, h1.imp (·.1) id, ?_⟩
  have h3 := mrank_le F'
  unfold msmeasure
  rcases h1 with ⟨rfl, h1⟩ | h1
  · omega
  · have h4 := mstep_work h.good.place h1
    cases hl : l.real with
    | true =>
      rw [hl] at h4
      simp only [if_true] at h4 ⊢
      have h6 : (mwork S' + 1) * (mperStep P + 1) ≤ mwork S * (mperStep P + 1) := Nat.mul_le_mul_right _ h4
      rw [Nat.succ_mul] at h6
      omega
    | false =>
      have h5 := h2 hl
      rw [hl] at h4
      simp only [Bool.false_eq_true, if_false] at h4 ⊢
      have h6 : mwork S' * (mperStep P + 1) ≤ (mwork S + 1) * (mperStep P + 1) := Nat.mul_le_mul_right _ h4
      rw [Nat.succ_mul] at h6
      omega

theorem mmeasure_run (hn : ∀ i, 0 < (P i).threads) {F F' : MSState P} {S : MState P}
    {t : (i : Fin c) → Fin (P i).threads → ThreadPC (W i)} (h : MRel k rows file nB prog F S t) {ls : List (MLabel P)}
    (e : msrun F ls = some F') :
    ls.countP (·.real) ≤ msmeasure F S + ls.countP (fun l => !l.real) * (mperStep P + 1) := by
  induction ls generalizing F S t with
  | nil => simp
  | cons l ls ih =>
    simp only [msrun] at e
    cases h1 : msstep F l with
    | none => rw [h1] at e; cases e
    | some F1 =>
      rw [h1] at e
      obtain ⟨S1, t1, hr, _, h2⟩ := mmeasure_step hn h h1
      have h3 := ih hr e
      rw [List.countP_cons, List.countP_cons, Nat.add_mul]
      cases hl : l.real <;> simp only [hl, if_true, Bool.false_eq_true, if_false, Bool.not_true, Bool.not_false] at h2 ⊢ <;> omega

/-- Along every schedule, the number of statements that the client and the threads of all columns execute is bounded. -/
theorem mstatements_bounded (hn : ∀ i, 0 < (P i).threads) {ls : List (MLabel P)} {F : MSState P}
    (e : msrun (msinitial P k rows file nB prog) ls = some F) :
    ls.countP (·.real) ≤ (mwork (minitial P k rows file nB prog) + 1 + ls.countP (fun l => !l.real)) *
      (∑ i, ((P i).threads * ((P i).maxCache + 5) + 6) + 1) := by
  have h1 := mmeasure_run hn (mrel_initial hn) e
  have h2 := mrank_le (msinitial P k rows file nB prog)
  change _ ≤ _ * (mperStep P + 1)
  rw [Nat.add_mul, Nat.add_mul]
  unfold msmeasure at h1
  omega

theorem mreach_step {S0 S S' : MState P} (h : MReachable S0 S) {l : MLabel P} (e : mstep S l = some S') : MReachable S0 S' := by
  obtain ⟨ls, h⟩ := h
  refine ⟨ls ++ [l], ?_⟩
  induction ls generalizing S0 with
  | nil =>
    injection h with h
    subst h
    simp only [List.nil_append, mrun, e, Option.bind_some]
  | cons l' ls ih =>
    simp only [mrun, List.cons_append] at h ⊢
    cases h1 : mstep S0 l' with
    | none => rw [h1] at h; cases h
    | some S1 =>
      rw [h1] at h
      exact ih h

/-- From every reachable state, statements of the client and the threads alone lead to a state in which all work is
done. -/
theorem mstatements_finish (hn : ∀ i, 0 < (P i).threads) (hm : ∀ i, 1 ≤ (P i).maxCache) {ls : List (MLabel P)}
    {F : MSState P} (e : msrun (msinitial P k rows file nB prog) ls = some F) (junk : (i : Fin c) → Nat → W i) :
    ∃ ls' F', (∀ l ∈ ls', MLabel.real l = true) ∧ msrun F ls' = some F' ∧ MSFinished F' := by
  obtain ⟨S, t, h1, hr⟩ := mrel_reach hn e
  clear e
  induction hw : msmeasure F S using Nat.strong_induction_on generalizing F S t with
  | _ w ih =>
    have go : ∀ l F1, MLabel.real l = true → msstep F l = some F1 →
        ∃ ls' F', (∀ l ∈ ls', MLabel.real l = true) ∧ msrun F ls' = some F' ∧ MSFinished F' := by
      intro l F1 hl h2
      obtain ⟨S1, t1, hr1, h3, h4⟩ := mmeasure_step hn hr h2
      rw [hl] at h4
      simp only [if_true] at h4
      have h5 : MReachable (minitial P k rows file nB prog) S1 := by
        rcases h3 with rfl | h3
        · exact h1
        · exact mreach_step h1 h3
      obtain ⟨ls', F', h6, h7, h8⟩ := ih _ (by omega) S1 t1 h5 hr1 rfl
      refine ⟨l :: ls', F', ?_, ?_, h8⟩
      · intro l' hl'
        rcases List.mem_cons.mp hl' with rfl | hl'
        · exact hl
        · exact h6 l' hl'
      · simp only [msrun, h2]
        exact h7
    cases hc : msstep F (.client junk) with
    | some F1 => exact go _ F1 rfl hc
    | none =>
      by_cases ht : ∃ i j, msstep F (.thread i j) ≠ none
      · obtain ⟨i, j, hi⟩ := ht
        obtain ⟨F1, h2⟩ := Option.ne_none_iff_exists'.mp hi
        exact go _ F1 rfl h2
      · push Not at ht
        exact ⟨[], F, by simp, rfl, mfinished_of_stuck hn hm h1 hr hc ht⟩

/-! ## Examples -/

/-- Numbers for the steps of a schedule. Not in the code. -/
def mlabel : Nat → MLabel pair
  | 0 => .client fun _ _ => 0
  | 1 => .thread 0 (0 : Fin 1)
  | 2 => .thread 1 (0 : Fin 1)
  | 3 => .spuriousThread 1 (0 : Fin 1)
  | _ => .spuriousClient 0

/-- The state before the schedule. Not in the code. -/
def mstart : MSState pair := msinitial pair 0 0 (fun _ _ => none) 0 pairProgram

/-- A schedule in which client and threads take turns within the sections with a mutex. -/
def mschedule : List Nat :=
  [0, 0, 0, 0, 0, 0, 1, 0, 0, 0, 1, 1, 1, 0, 0, 2, 2, 0, 0, 0, 2, 2, 0, 0, 0, 1, 1, 0, 0, 0, 1, 1, 0, 0, 0, 1, 1,
   0, 0, 0, 1, 1, 0, 0, 0, 1, 1, 0, 1, 1, 2, 2, 0, 0, 0, 2, 2, 0, 0, 0, 1, 1, 0, 1, 1, 1, 1, 0, 0, 0, 1, 1, 1, 1,
   1, 1, 2, 0, 0, 0, 2, 2, 0, 0, 1, 1, 1, 1, 0, 0, 2, 2, 2, 2, 2, 0, 0, 0, 0, 0, 0, 2, 0, 2, 2, 2, 2, 0, 0, 0, 2,
   2, 2, 2, 2, 2, 2, 0, 0, 0, 0, 0, 2, 2, 2, 2, 0, 0]

/-- The blocks with the rows they hold. Not in the code. -/
def shown (l : List (Nat × Rows Nat)) : List (Nat × List (Option Nat)) :=
  l.map fun x => (x.1, (List.range x.2.len).map x.2.get)

/-- The hypotheses of the theorems hold, with `F.pc = .closed` at the end. -/
example : (msrun mstart (mschedule.map mlabel)).map (fun F =>
      (isClosedM F.pc, [shown (F.cols 0).d.writes, shown (F.cols 1).d.writes])) =
    some (true, [[(0, [some 20, some 21]), (1, [some 22, some 23])], [(0, [some 30, some 31]), (1, [some 32, some 33])]]) := by
  decide +kernel

/-- The client has the mutex of column 0 in `storeBlock`; the thread of column 0 has to wait for it, but that of column 1
can go on. -/
example : (msrun mstart (([0, 0, 0, 0, 0, 0, 0, 0, 0, 0]).map mlabel)).map (fun F =>
      ((F.cols 0).mutex == some none, (F.cols 1).mutex.isSome, (msstep F (mlabel 1)).isSome, (msstep F (mlabel 2)).isSome)) =
    some (true, false, false, true) := by decide +kernel

example : (∀ i, 0 < (pair i).threads) ∧ (∀ i, 1 ≤ (pair i).maxCache) ∧ ∀ i, Whole 2 (pairRows i) 4 0 (ops i pairProgram) := by
  refine ⟨fun _ => (by decide : 0 < demo.threads), fun _ => (by decide : 1 ≤ demo.maxCache), fun i => ?_⟩
  match i with
  | 0 => simp [pairProgram, ops, Whole, pairRows]
  | 1 => simp [pairProgram, ops, Whole, pairRows]

/-- A reopened table with one block of two rows in each column. -/
example : ∀ i, Updates 2 1 [] noBlock
    (ops i ([.get 0 0, .put 0 1 5, .get 1 1, .put 1 0 6, .get 0 0, .close] : List (MOp fun _ : Fin 2 => Nat))) := by
  intro i
  match i with
  | 0 => simp [ops, Updates, noBlock]
  | 1 => simp [ops, Updates, noBlock]

end Dysco.MStmt
