import Verif.SplitModel

namespace Dysco.Multi
open Col Race
variable {K : Type} {c : Nat} {W : Fin c → Type} {P : (i : Fin c) → Params (W i) K}

/-! ## States that differ in what is not used -/

/-- The state with what the columns hold in place of the shared variables. -/
def nf (S : MState P) : MState P := { S with cols := S.view }

theorem nf_view (S : MState P) : (nf S).view = S.view := rfl

theorem nf_nf (S : MState P) : nf (nf S) = nf S := rfl

theorem nf_set (S : MState P) (i : Fin c) (s : State (W i) K (P i).threads) :
    nf ((nf S).set i s) = nf (S.set i s) := by
  simp only [nf, MState.set, MState.mk.injEq, true_and]
  funext j
  unfold MState.view
  by_cases h : j = i
  · subst h; simp
  · simp [h]

theorem nf_enter (S : MState P) (i : Fin c) (s : State (W i) K (P i).threads) :
    nf ((nf S).enter i s) = nf (S.enter i s) := by
  have h := nf_set S i s
  simp only [nf, MState.mk.injEq] at h
  simp only [nf, MState.enter, MState.mk.injEq, true_and]
  exact ⟨h.2.1, h.2.2.1, h.2.2.2.1, h.2.2.2.2⟩

theorem nf_with {S S' : MState P} (h : nf S = nf S') (pc : MPC W) : nf { S with pc := pc } = nf { S' with pc := pc } := by
  simp only [nf, MState.mk.injEq] at h ⊢
  exact ⟨trivial, h.2⟩

theorem nf_client (S : MState P) (junk : (i : Fin c) → Nat → W i) :
    ((nf S).client junk).map nf = (S.client junk).map nf := by
  unfold MState.client
  have h1 : (nf S).pc = S.pc := rfl
  have h2 : (nf S).todo = S.todo := rfl
  rw [h1]
  cases hpc : S.pc with
  | idle =>
    simp only [h2]
    cases ht : S.todo with
    | nil => rfl
    | cons op rest =>
      cases op with
      | put i row v =>
        simp only
        by_cases hst : startsBlocks (P i) (S.view i) row = true
        · have hst' : startsBlocks (P i) ((nf S).view i) row = true := hst
          rw [if_pos hst, if_pos hst']
          rfl
        · have hst' : ¬ startsBlocks (P i) ((nf S).view i) row = true := hst
          rw [if_neg hst, if_neg hst']
          exact congrArg some (nf_enter { S with todo := rest, pc := .idle } i _)
      | get i row =>
        simp only [nf_view]
        exact congrArg some (nf_enter { S with todo := rest, pc := .idle } i _)
      | close => rfl
  | call i =>
    simp only [nf_view, Option.map_map]
    congr 1
    funext s
    exact nf_enter S i s
  | init i row v k =>
    simp only [nf_view]
    by_cases hk : k < c
    · rw [dif_pos hk, dif_pos hk]
      by_cases hc : (S.cols ⟨k, hk⟩).cache ≠ []
      · have hc' : ((nf S).cols ⟨k, hk⟩).cache ≠ [] := hc
        rw [if_pos hc, if_pos hc']
        rfl
      · have hc' : ¬ ((nf S).cols ⟨k, hk⟩).cache ≠ [] := hc
        rw [if_neg hc, if_neg hc']
        exact congrArg some (nf_with (nf_set S ⟨k, hk⟩ _) _)
    · rw [dif_neg hk, dif_neg hk]
      rfl
  | header i row v =>
    simp only [nf_view]
    exact congrArg some (nf_enter S i _)
  | close k =>
    simp only [nf_view]
    by_cases hk : k < c
    · rw [dif_pos hk, dif_pos hk]
      exact congrArg some (nf_with (nf_set S ⟨k, hk⟩ _) _)
    · rw [dif_neg hk, dif_neg hk]
      rfl
  | closing i =>
    simp only [nf_view, Option.map_map]
    congr 1
    funext s
    exact nf_with (nf_set S i s) _
  | closed | failed | unsupported => rfl

theorem nf_step (S : MState P) (l : MLabel P) : (mstep (nf S) l).map nf = (mstep S l).map nf := by
  cases l with
  | client junk => exact nf_client S junk
  | thread i t =>
    simp only [mstep, nf_view, Option.map_map]
    congr 1
    funext s
    exact nf_set S i s
  | spuriousThread i t =>
    simp only [mstep, nf_view, Option.map_map]
    congr 1
    funext s
    exact nf_set S i s
  | spuriousClient i =>
    simp only [mstep, nf_view, Option.map_map]
    congr 1
    funext s
    exact nf_set S i s

/-- The same step from states that differ in what is not used. -/
theorem nf_follow {S S1 S2 : MState P} {l : MLabel P} (h : nf S = nf S2) (e : mstep S l = some S1) :
    ∃ S3, mstep S2 l = some S3 ∧ nf S1 = nf S3 := by
  have h1 : (mstep S l).map nf = (mstep S2 l).map nf := by rw [← nf_step S, h, nf_step]
  rw [e, Option.map_some] at h1
  obtain ⟨S3, h2, h3⟩ := Option.map_eq_some_iff.mp h1.symm
  exact ⟨S3, h2, h3.symm⟩

variable {k : K} {rows nB : Nat} {file : (i : Fin c) → Nat → Option (Rows (W i))} {prog : List (MOp W)}

theorem good_nf {S : MState P} : Good k rows file nB prog (nf S) ↔ Good k rows file nB prog S :=
  ⟨fun h => ⟨h.place, fun i => (h.cols i).imp fun _ h => ⟨h.split, h.init, h.order, h.ending, h.reach⟩, h.fresh⟩,
    fun h => ⟨h.place, fun i => (h.cols i).imp fun _ h => ⟨h.split, h.init, h.order, h.ending, h.reach⟩, h.fresh⟩⟩

/-! ## A block that was not found -/

/-- The client goes on without reading. -/
def keep (i : Fin c) (k : Next (W i)) (S : MState P) : MState P :=
  S.enter i (State.finish { S.view i with current := k.row / S.rowsPerBlock, changed := false } k)

theorem readBlock_false {V : Type} {n : Nat} (p : Params V K) (s : State V K n) (b : Nat) (junk : Nat → V) :
    readBlock p s b junk false = { s with current := b, changed := false } := rfl

theorem readBlock_found {V : Type} (p : Params V K) (s : State V K p.threads) (b : Nat) (junk : Nat → V) :
    readBlock p s b junk (decide (b < s.nBlocks)) = State.loadBlock p s b junk := by
  unfold readBlock State.loadBlock
  by_cases h : b < s.nBlocks
  · rw [decide_eq_true h, if_pos h, if_pos rfl]
    cases s.file b <;> rfl
  · rw [decide_eq_false h, if_neg h, if_neg Bool.false_ne_true]

/-- What the client changes. -/
structure Mine (V : Type) where
  buffer : Rows V
  current : Nat
  changed : Bool
  outs : List (Nat × Result V)

/-- Puts these variables back into a state. Not in the code. -/
def put' {V : Type} {n : Nat} (x : Mine V) (s : State V K n) : State V K n :=
  { s with client := .idle, buffer := x.buffer, current := x.current, changed := x.changed, outs := x.outs }

/-- These variables after the access. Not in the code. -/
def mineOf {V : Type} {n : Nat} (k : Next V) (s : State V K n) : Mine V :=
  match k with
  | .put row v => ⟨s.buffer.set (row % s.rowsPerBlock) v, row / s.rowsPerBlock, true, s.outs⟩
  | .get row => ⟨s.buffer, row / s.rowsPerBlock, false, s.outs ++ [(row, s.buffer.getData (row % s.rowsPerBlock))]⟩

theorem finish_put' {V : Type} {n : Nat} (k : Next V) (s : State V K n) :
    State.finish { s with current := k.row / s.rowsPerBlock, changed := false } k = put' (mineOf k s) s := by
  cases k <;> rfl

theorem keep_eq {i : Fin c} {k : Next (W i)} {S : MState P} : keep i k S =
    { S with pc := .idle, cols := Function.update S.cols i (put' (mineOf k (S.view i)) (S.view i)) } := by
  unfold keep
  have h : k.row / S.rowsPerBlock = k.row / (S.view i).rowsPerBlock := rfl
  rw [h, finish_put']
  rfl

theorem keep_view_self {i : Fin c} {k : Next (W i)} {S : MState P} :
    (keep i k S).view i = put' (mineOf k (S.view i)) (S.view i) := by
  rw [keep_eq]
  simp only [MState.view, Function.update_self]
  rfl

theorem keep_view_ne {i j : Fin c} {k : Next (W i)} {S : MState P} (h : j ≠ i) : (keep i k S).view j = S.view j := by
  rw [keep_eq]
  simp only [MState.view, Function.update_of_ne h]

/-- A step of a column that is not one of the client. -/
structure Other {V : Type} {n : Nat} (f : State V K n → Option (State V K n)) : Prop where
  comm : ∀ (x : Mine V) s s1, f s = some s1 → f (put' x s) = some (put' x s1)
  client : ∀ s s1 k, f s = some s1 → s.client = .load k → s1.client = .load k
  mine : ∀ s s1, f s = some s1 → s1.buffer = s.buffer ∧ s1.outs = s.outs ∧ s1.rowsPerBlock = s.rowsPerBlock
  blocks : ∀ s s1, f s = some s1 → s.nBlocks ≤ s1.nBlocks

theorem seek_put' {V : Type} {n : Nat} (x : Mine V) (s : State V K n) (t : Fin n) :
    (put' x s).seek t = put' x (s.seek t) := by
  cases h : s.cache.available with
  | none => simp only [State.seek, put', h]; rfl
  | some y => simp only [State.seek, put', h]

theorem other_thread {V : Type} {n : Nat} (t : Fin n) : Other (K := K) (V := V) fun s => threadStep s t := by
  refine ⟨fun x s s1 e => ?_, fun s s1 k e hc => ?_, fun s s1 e => ?_, fun s s1 e => ?_⟩
  · unfold threadStep at e ⊢
    have h0 : (put' x s).threads t = s.threads t := rfl
    rw [h0]
    cases ht : s.threads t with
    | head =>
      rw [ht] at e
      simp only at e ⊢
      by_cases hs : s.stop = true
      · have hs' : (put' x s).stop = true := hs
        rw [if_pos hs] at e
        rw [if_pos hs']
        injection e with e; subst e; rfl
      · have hs' : ¬ (put' x s).stop = true := hs
        rw [if_neg hs] at e
        rw [if_neg hs']
        injection e with e; subst e
        exact congrArg some (seek_put' x s t)
    | woken =>
      rw [ht] at e
      injection e with e; subst e
      exact congrArg some (seek_put' x s t)
    | encode b rows =>
      rw [ht] at e
      simp only at e ⊢
      by_cases hs : s.locked = true
      · rw [if_pos hs] at e; cases e
      · have hs' : ¬ (put' x s).locked = true := hs
        rw [if_neg hs] at e
        rw [if_neg hs']
        injection e with e; subst e; rfl
    | written b =>
      rw [ht] at e
      injection e with e; subst e; rfl
    | wait => rw [ht] at e; cases e
    | done => rw [ht] at e; cases e
  all_goals
    unfold threadStep at e
    split at e
    · split at e
      · injection e with e; subst e; simp_all
      · injection e with e; subst e; unfold State.seek; split <;> simp_all
    · injection e with e; subst e; unfold State.seek; split <;> simp_all
    · split at e
      · cases e
      · injection e with e; subst e; simp_all
        try (split <;> omega)
    · injection e with e; subst e; simp_all [State.notify, ClientPC.wake]
    · cases e
    · cases e

theorem other_wake {V : Type} {n : Nat} (t : Fin n) : Other (K := K) (V := V) fun s =>
    some { s with threads := Function.update s.threads t (s.threads t).wake } := by
  refine ⟨fun x s s1 e => ?_, fun s s1 k e hc => ?_, fun s s1 e => ?_, fun s s1 e => ?_⟩ <;> injection e with e <;> subst e
  · rfl
  · exact hc
  · exact ⟨rfl, rfl, rfl⟩
  · exact Nat.le_refl _

theorem other_client {V : Type} {n : Nat} : Other (K := K) (V := V) (n := n) fun s => some { s with client := s.client.wake } := by
  refine ⟨fun x s s1 e => ?_, fun s s1 k e hc => ?_, fun s s1 e => ?_, fun s s1 e => ?_⟩ <;> injection e with e <;> subst e
  · rfl
  · show s.client.wake = _
    rw [hc]
    rfl
  · exact ⟨rfl, rfl, rfl⟩
  · exact Nat.le_refl _

theorem other_label {l : MLabel P} (h : ∀ junk, l ≠ .client junk) :
    ∃ (j : Fin c) (f : State (W j) K (P j).threads → Option (State (W j) K (P j).threads)), Other f ∧
      ∀ S : MState P, mstep S l = (f (S.view j)).map (S.set j) := by
  cases l with
  | client junk => exact (h junk rfl).elim
  | thread i t => exact ⟨i, _, other_thread t, fun _ => rfl⟩
  | spuriousThread i t => exact ⟨i, _, other_wake t, fun _ => rfl⟩
  | spuriousClient i => exact ⟨i, _, other_client, fun _ => rfl⟩

theorem view_set_self {S : MState P} {j : Fin c} {s : State (W j) K (P j).threads} :
    (S.set j s).view j = { s with todo := [], locked := false, rowsPerBlock := S.rowsPerBlock } := by
  simp only [MState.view, MState.set, Function.update_self]

theorem view_set_ne {S : MState P} {i j : Fin c} {s : State (W j) K (P j).threads} (h : i ≠ j) :
    (S.set j s).view i = { S.view i with nBlocks := s.nBlocks } := by
  simp only [MState.view, MState.set, Function.update_of_ne h]

theorem nf_ext {S S' : MState P} (h1 : S.pc = S'.pc) (h2 : S.todo = S'.todo) (h3 : S.rowsPerBlock = S'.rowsPerBlock)
    (h4 : S.nBlocks = S'.nBlocks) (h5 : ∀ i, S.view i = S'.view i) : nf S = nf S' := by
  simp only [nf, MState.mk.injEq]
  exact ⟨h1, h2, h3, h4, funext h5⟩

/-- A step of a thread, before or after the client went on without reading. -/
theorem keep_step {S S1 : MState P} {l : MLabel P} (hl : ∀ junk, l ≠ .client junk) (e0 : mstep S l = some S1) {i : Fin c}
    {k : Next (W i)} (hk : (S.cols i).client = .load k) :
    S1.pc = S.pc ∧ (S1.cols i).client = .load k ∧ S1.rowsPerBlock = S.rowsPerBlock ∧ S.nBlocks ≤ S1.nBlocks ∧
      ∃ S2, mstep (keep i k S) l = some S2 ∧ nf S2 = nf (keep i k S1) := by
  obtain ⟨j, f, hf, hm⟩ := other_label hl
  rw [hm] at e0 ⊢
  obtain ⟨s1, e, rfl⟩ := Option.map_eq_some_iff.mp e0
  obtain ⟨m1, m2, m3⟩ := hf.mine _ _ e
  have hb := hf.blocks _ _ e
  by_cases hj : j = i
  · subst hj
    refine ⟨rfl, ?_, rfl, hb, (keep j k S).set j (put' (mineOf k (S.view j)) s1), ?_, ?_⟩
    · show (Function.update S.cols j s1 j).client = _
      rw [Function.update_self]
      exact hf.client _ _ k e hk
    · rw [keep_view_self, hf.comm _ _ _ e]
      rfl
    · have hm : mineOf k ((S.set j s1).view j) = mineOf k (S.view j) := by
        rw [view_set_self]
        cases k <;> simp only [mineOf, m1, m2] <;> rfl
      refine nf_ext ?_ ?_ ?_ ?_ fun u => ?_
      · rw [keep_eq, keep_eq]; rfl
      · rw [keep_eq, keep_eq]; rfl
      · rw [keep_eq, keep_eq]; rfl
      · rw [keep_eq, keep_eq]; rfl
      · by_cases hu : u = j
        · subst hu
          rw [view_set_self, keep_view_self, hm, view_set_self, keep_eq]
          rfl
        · rw [view_set_ne hu, keep_view_ne hu, keep_view_ne hu, view_set_ne hu]
          rfl
  · have hi : i ≠ j := fun h => hj h.symm
    refine ⟨rfl, ?_, rfl, hb, (keep i k S).set j s1, ?_, ?_⟩
    · show (Function.update S.cols j s1 i).client = _
      rw [Function.update_of_ne hi]
      exact hk
    · rw [keep_view_ne hj, e]
      rfl
    · refine nf_ext ?_ ?_ ?_ ?_ fun u => ?_
      · rw [keep_eq, keep_eq]; rfl
      · rw [keep_eq, keep_eq]; rfl
      · rw [keep_eq, keep_eq]; rfl
      · rw [keep_eq, keep_eq]; rfl
      · by_cases hu : u = j
        · subst hu
          rw [view_set_self, keep_view_ne hj, view_set_self, keep_eq]
        · rw [view_set_ne hu]
          by_cases hui : u = i
          · subst hui
            rw [keep_view_self, keep_view_self, view_set_ne hu]
            cases k <;> rfl
          · rw [keep_view_ne hui, keep_view_ne hui, view_set_ne hu]

end Dysco.Multi
