import Verif.SplitLemmas

/-!
# Other threads may run in the middle of `loadBlock` (C127)

If the block was not found, the program whose `loadBlock` is one step has made this step at the moment of the test: what
follows only changes variables that no other thread uses. If the block was found, it makes the step at the moment of the
reading: the number of blocks does not decrease, so the block is still found.
-/

namespace Dysco.Multi
open Col Race
variable {K : Type} {c : Nat} {W : Fin c → Type} {P : (i : Fin c) → Params (W i) K}
  {k : K} {rows nB : Nat} {file : (i : Fin c) → Nat → Option (Rows (W i))} {prog : List (MOp W)}

/-- The state of the program whose `loadBlock` is one step: if the block was not found, it has already gone on. -/
def FState.whole (F : FState P) : MState P :=
  match F.S.loading, F.found with
  | some ⟨i, k⟩, some false => keep i k F.S
  | _, _ => F.S

theorem loading_eq {S : MState P} {i : Fin c} {k : Next (W i)} (h : S.loading = some ⟨i, k⟩) :
    S.pc = .call i ∧ (S.cols i).client = .load k := by
  unfold MState.loading at h
  split at h
  · rename_i j hj
    split at h
    · rename_i k' hk
      injection h with h
      cases h
      exact ⟨hj, hk⟩
    · cases h
  · cases h

theorem loading_of {S : MState P} {i : Fin c} {k : Next (W i)} (h1 : S.pc = .call i) (h2 : (S.cols i).client = .load k) :
    S.loading = some ⟨i, k⟩ := by
  unfold MState.loading
  simp only [h1, h2]

/-- Between the test and the rest, the client is in `loadBlock`, and a block that was found is in the file. -/
structure Between (F : FState P) : Prop where
  load : F.found ≠ none → ∃ i k, F.S.loading = some ⟨i, k⟩
  found : ∀ i k, F.S.loading = some ⟨i, k⟩ → F.found = some true → k.row / F.S.rowsPerBlock < F.S.nBlocks

/-- The steps of the program whose `loadBlock` is one step. -/
theorem load_client {S : MState P} {i : Fin c} {k : Next (W i)} (h : S.loading = some ⟨i, k⟩)
    (junk : (i : Fin c) → Nat → W i) : S.client junk = some (S.enter i
      ((readBlock (P i) (S.view i) (k.row / S.rowsPerBlock) (junk i) (decide (k.row / S.rowsPerBlock < S.nBlocks))).finish k)) := by
  obtain ⟨h1, h2⟩ := loading_eq h
  have h3 : (S.view i).client = .load k := h2
  have h4 := readBlock_found (P i) (S.view i) (k.row / S.rowsPerBlock) (junk i)
  unfold MState.client clientStep
  simp only [h1, h3, Option.map_some]
  have h5 : k.row / (S.view i).rowsPerBlock = k.row / S.rowsPerBlock := rfl
  rw [h5, ← h4]
  rfl

/-- The program whose `loadBlock` is one step makes the same step, or none. -/
theorem between_step {F F' : FState P} {l : MLabel P} (h : Between F) (e : fstep F l = some F') {S2 : MState P}
    (hS : nf F.whole = nf S2) : Between F' ∧
      ((∃ S3, mstep S2 l = some S3 ∧ nf F'.whole = nf S3 ∧ (F'.found = some false ∧ F.found = none ∨ F'.found = none ∧ F.found = some true ∨
        F'.found = F.found)) ∨
      (nf F'.whole = nf S2 ∧ (F'.found = some true ∧ F.found = none ∨ F'.found = none ∧ F.found = some false))) := by
  have hother : (∀ junk, l ≠ .client junk) → (mstep F.S l).map (fun S => (⟨S, F.found⟩ : FState P)) = some F' →
      Between F' ∧ ∃ S3, mstep S2 l = some S3 ∧ nf F'.whole = nf S3 ∧ F'.found = F.found := by
    intro hl e
    obtain ⟨S1, e1, rfl⟩ := Option.map_eq_some_iff.mp e
    by_cases hf : F.found = none
    · refine ⟨⟨fun h => (h hf).elim, fun i k _ h => ?_⟩, ?_⟩
      · exact absurd (hf.symm.trans h) (by simp)
      · have h1 : F.whole = F.S := by unfold FState.whole; rw [hf]; split <;> simp_all
        have h2 : FState.whole ⟨S1, F.found⟩ = S1 := by unfold FState.whole; rw [hf]; split <;> simp_all
        rw [h1] at hS
        rw [h2]
        obtain ⟨S3, h3, h4⟩ := nf_follow hS e1
        exact ⟨S3, h3, h4, rfl⟩
    · obtain ⟨i, k, hld⟩ := h.load hf
      obtain ⟨hp, hk⟩ := loading_eq hld
      obtain ⟨k1, k2, k3, k4, S4, k5, k6⟩ := keep_step hl e1 hk
      have hld1 : S1.loading = some ⟨i, k⟩ := loading_of (k1.trans hp) k2
      refine ⟨⟨fun _ => ⟨i, k, hld1⟩, fun j k' hj ht => ?_⟩, ?_⟩
      · simp only at hj ht
        rw [hld1] at hj
        injection hj with hj
        cases hj
        have := h.found i k hld ht
        simp only
        rw [k3]
        omega
      · cases hb : F.found with
        | none => exact (hf hb).elim
        | some b =>
          cases b with
          | true =>
            have h1 : F.whole = F.S := by unfold FState.whole; rw [hb, hld]
            have h2 : FState.whole ⟨S1, some true⟩ = S1 := by unfold FState.whole; simp only [hld1]
            rw [h1] at hS
            rw [h2]
            obtain ⟨S3, h3, h4⟩ := nf_follow hS e1
            exact ⟨S3, h3, h4, rfl⟩
          | false =>
            have h1 : F.whole = keep i k F.S := by unfold FState.whole; rw [hb, hld]
            have h2 : FState.whole ⟨S1, some false⟩ = keep i k S1 := by unfold FState.whole; simp only [hld1]
            rw [h1] at hS
            rw [h2]
            obtain ⟨S3, h3, h4⟩ := nf_follow hS k5
            exact ⟨S3, h3, k6.symm.trans h4, rfl⟩
  cases l with
  | client junk =>
    change F.client junk = some F' at e
    unfold FState.client at e
    cases hld : F.S.loading with
    | none =>
      have hf : F.found = none := by
        by_contra hf
        obtain ⟨i, k, h1⟩ := h.load hf
        rw [hld] at h1
        cases h1
      rw [hld] at e
      simp only at e
      obtain ⟨S1, e1, rfl⟩ := Option.map_eq_some_iff.mp e
      have h1 : F.whole = F.S := by unfold FState.whole; rw [hld]
      have h2 : FState.whole ⟨S1, none⟩ = S1 := by unfold FState.whole; split <;> simp_all
      rw [h1] at hS
      refine ⟨⟨fun h => (h rfl).elim, fun i k _ h => by cases h⟩, .inl ?_⟩
      rw [h2]
      obtain ⟨S3, h3, h4⟩ := nf_follow (l := .client junk) hS e1
      exact ⟨S3, h3, h4, .inr (.inr hf.symm)⟩
    | some x =>
      obtain ⟨i, k⟩ := x
      have hcl := load_client hld junk
      rw [hld] at e
      cases hf : F.found with
      | none =>
        rw [hf] at e
        injection e with e
        subst e
        have h1 : F.whole = F.S := by unfold FState.whole; rw [hld, hf]
        rw [h1] at hS
        refine ⟨⟨fun _ => ⟨i, k, hld⟩, fun j k' hj ht => ?_⟩, ?_⟩
        · rw [hld] at hj
          injection hj with hj
          cases hj
          simpa using ht
        · by_cases hb : k.row / F.S.rowsPerBlock < F.S.nBlocks
          · refine .inr ⟨?_, .inl ⟨by simp [hb], rfl⟩⟩
            rw [← hS]
            unfold FState.whole
            simp only [hld, decide_eq_true hb]
          · obtain ⟨S3, h3, h4⟩ := nf_follow (l := .client junk) hS hcl
            refine .inl ⟨S3, h3, ?_, .inl ⟨by simp [hb], rfl⟩⟩
            rw [← h4]
            unfold FState.whole
            simp only [hld, decide_eq_false hb]
            rfl
      | some b =>
        rw [hf] at e
        injection e with e
        subst e
        have h2 : ∀ S1 : MState P, FState.whole ⟨S1, none⟩ = S1 := by
          intro S1; unfold FState.whole; split <;> simp_all
        refine ⟨⟨fun h => (h rfl).elim, fun i k _ h => by cases h⟩, ?_⟩
        rw [h2]
        cases b with
        | true =>
          have h1 : F.whole = F.S := by unfold FState.whole; rw [hld, hf]
          rw [h1] at hS
          have hb := h.found i k hld hf
          rw [decide_eq_true hb] at hcl
          obtain ⟨S3, h3, h4⟩ := nf_follow (l := .client junk) hS hcl
          exact .inl ⟨S3, h3, h4, .inr (.inl ⟨rfl, rfl⟩)⟩
        | false =>
          have h1 : F.whole = keep i k F.S := by unfold FState.whole; rw [hld, hf]
          rw [h1] at hS
          exact .inr ⟨hS, .inr ⟨rfl, rfl⟩⟩
  | thread i t =>
    obtain ⟨h1, S3, h2, h3, h4⟩ := hother (by simp) e
    exact ⟨h1, .inl ⟨S3, h2, h3, .inr (.inr h4)⟩⟩
  | spuriousThread i t =>
    obtain ⟨h1, S3, h2, h3, h4⟩ := hother (by simp) e
    exact ⟨h1, .inl ⟨S3, h2, h3, .inr (.inr h4)⟩⟩
  | spuriousClient i =>
    obtain ⟨h1, S3, h2, h3, h4⟩ := hother (by simp) e
    exact ⟨h1, .inl ⟨S3, h2, h3, .inr (.inr h4)⟩⟩

/-- All along a run. -/
theorem frun_whole {ls : List (MLabel P)} : ∀ {F F' : FState P} {S2 : MState P}, Between F → nf F.whole = nf S2 →
    frun F ls = some F' → Between F' ∧ ∃ ls' S3, mrun S2 ls' = some S3 ∧ nf F'.whole = nf S3 ∧
      ls.length + (if F.found = some true then 1 else 0) + (if F'.found = some false then 1 else 0) ≤
        2 * ls'.length + (if F'.found = some true then 1 else 0) + (if F.found = some false then 1 else 0) := by
  induction ls with
  | nil =>
    intro F F' S2 h hS e
    injection e with e
    subst e
    refine ⟨h, [], S2, rfl, hS, ?_⟩
    simp only [List.length_nil]
    omega
  | cons l ls ih =>
    intro F F' S2 h hS e
    simp only [frun] at e
    obtain ⟨F1, e1, e2⟩ := Option.bind_eq_some_iff.mp e
    obtain ⟨h1, h2⟩ := between_step h e1 hS
    rcases h2 with ⟨S3, h3, h4, h5⟩ | ⟨h3, h5⟩
    · obtain ⟨h6, ls', S4, h7, h8, h9⟩ := ih h1 h4 e2
      refine ⟨h6, l :: ls', S4, ?_, h8, ?_⟩
      · simp only [mrun, h3, Option.bind_some, h7]
      · simp only [List.length_cons]
        rcases h5 with ⟨h5, h10⟩ | ⟨h5, h10⟩ | h5 <;> simp_all <;> omega
    · obtain ⟨h6, ls', S4, h7, h8, h9⟩ := ih h1 h3 e2
      refine ⟨h6, ls', S4, h7, h8, ?_⟩
      simp only [List.length_cons]
      rcases h5 with ⟨h5, h10⟩ | ⟨h5, h10⟩
      · simp_all
      · simp_all
        omega

/-- The beginning: nothing is loaded. -/
def finitial (P : (i : Fin c) → Params (W i) K) (k : K) (rows : Nat) (file : (i : Fin c) → Nat → Option (Rows (W i)))
    (nB : Nat) (prog : List (MOp W)) : FState P := ⟨minitial P k rows file nB prog, none⟩

theorem between_initial : Between (finitial P k rows file nB prog) :=
  ⟨fun h => (h rfl).elim, fun _ _ _ h => by cases h⟩

/-- Whatever the other threads do between the two steps of `loadBlock`, the program gets to the same states as if
`loadBlock` were one step: whenever the client is not between the two steps, some schedule of the program of `MultiModel`
gives the same place of the client, the same calls left, the same rows per block and blocks in the file, and the same
columns with all that was written and returned. -/
theorem split_same {ls : List (MLabel P)} {F : FState P} (e : frun (finitial P k rows file nB prog) ls = some F)
    (hf : F.found = none) : ∃ ls' S, mrun (minitial P k rows file nB prog) ls' = some S ∧
      S.pc = F.S.pc ∧ S.todo = F.S.todo ∧ S.rowsPerBlock = F.S.rowsPerBlock ∧ S.nBlocks = F.S.nBlocks ∧
      (∀ i, S.view i = F.S.view i) ∧ ls.length ≤ 2 * ls'.length := by
  obtain ⟨_, ls', S, h1, h2, h3⟩ := frun_whole between_initial rfl e
  refine ⟨ls', S, h1, ?_⟩
  have h4 : F.whole = F.S := by unfold FState.whole; rw [hf]; split <;> simp_all
  rw [h4] at h2
  simp only [nf, MState.mk.injEq] at h2
  refine ⟨h2.1.symm, h2.2.1.symm, h2.2.2.1.symm, h2.2.2.2.1.symm, fun i => (congrFun h2.2.2.2.2 i).symm, ?_⟩
  rw [hf] at h3
  simpa [finitial] using h3

/-- In the middle of `loadBlock`, too, the files, the caches, the threads and what was stored and written are those of a
schedule of the program of `MultiModel`. -/
theorem split_file {ls : List (MLabel P)} {F : FState P} (e : frun (finitial P k rows file nB prog) ls = some F) :
    ∃ ls' S, mrun (minitial P k rows file nB prog) ls' = some S ∧ S.nBlocks = F.S.nBlocks ∧
      (∀ i, (S.cols i).file = (F.S.cols i).file ∧ (S.cols i).cache = (F.S.cols i).cache ∧
        (S.cols i).threads = (F.S.cols i).threads ∧ (S.cols i).stores = (F.S.cols i).stores ∧
        (S.cols i).writes = (F.S.cols i).writes) ∧ ls.length ≤ 2 * ls'.length + 1 := by
  obtain ⟨_, ls', S, h1, h2, h3⟩ := frun_whole between_initial rfl e
  refine ⟨ls', S, h1, ?_⟩
  simp only [nf, MState.mk.injEq] at h2
  have hw : F.whole.nBlocks = F.S.nBlocks ∧ ∀ i, (F.whole.cols i).file = (F.S.cols i).file ∧
      (F.whole.cols i).cache = (F.S.cols i).cache ∧ (F.whole.cols i).threads = (F.S.cols i).threads ∧
      (F.whole.cols i).stores = (F.S.cols i).stores ∧ (F.whole.cols i).writes = (F.S.cols i).writes := by
    unfold FState.whole
    split
    · rename_i i k _ _
      rw [keep_eq]
      refine ⟨rfl, fun j => ?_⟩
      by_cases hj : j = i
      · subst hj
        simp only [Function.update_self]
        exact ⟨rfl, rfl, rfl, rfl, rfl⟩
      · simp only [Function.update_of_ne hj]
        trivial
    · exact ⟨rfl, fun _ => ⟨rfl, rfl, rfl, rfl, rfl⟩⟩
  refine ⟨h2.2.2.2.1.symm.trans hw.1, fun i => ?_, ?_⟩
  · have h4 := congrFun h2.2.2.2.2 i
    have h5 := hw.2 i
    refine ⟨?_, ?_, ?_, ?_, ?_⟩
    · exact (congrArg State.file h4).symm.trans h5.1
    · exact (congrArg State.cache h4).symm.trans h5.2.1
    · exact (congrArg State.threads h4).symm.trans h5.2.2.1
    · exact (congrArg State.stores h4).symm.trans h5.2.2.2.1
    · exact (congrArg State.writes h4).symm.trans h5.2.2.2.2
  · simp [finitial] at h3
    split at h3 <;> split at h3 <;> omega

/-- Splitting `loadBlock` does not block anything: whoever could make a step still can. -/
theorem split_steps (F : FState P) (l : MLabel P) (h : (mstep F.S l).isSome = true) : (fstep F l).isSome = true := by
  cases l with
  | client junk =>
    show (F.client junk).isSome = true
    unfold FState.client
    cases F.S.loading with
    | none => simpa [mstep] using h
    | some x => cases F.found <;> rfl
  | thread i t => simpa [fstep] using h
  | spuriousThread i t => simpa [fstep] using h
  | spuriousClient i => simpa [fstep] using h

theorem good_fstep (hn : ∀ i, 0 < (P i).threads) {F F' : FState P} {l : MLabel P}
    (hg : Good k rows file nB prog F.S) (hg' : Good k rows file nB prog F'.whole) (e : fstep F l = some F') :
    Good k rows file nB prog F'.S := by
  have hother : (mstep F.S l).map (fun S => (⟨S, F.found⟩ : FState P)) = some F' → Good k rows file nB prog F'.S := by
    intro e
    obtain ⟨S1, e1, rfl⟩ := Option.map_eq_some_iff.mp e
    exact good_step hn hg e1
  cases l with
  | client junk =>
    change F.client junk = some F' at e
    unfold FState.client at e
    cases hld : F.S.loading with
    | none =>
      rw [hld] at e
      simp only at e
      obtain ⟨S1, e1, rfl⟩ := Option.map_eq_some_iff.mp e
      exact good_step (l := .client junk) hn hg e1
    | some x =>
      obtain ⟨i, k⟩ := x
      rw [hld] at e
      cases hf : F.found with
      | none =>
        rw [hf] at e
        injection e with e
        subst e
        exact hg
      | some b =>
        rw [hf] at e
        injection e with e
        subst e
        have h2 : ∀ S1 : MState P, FState.whole ⟨S1, none⟩ = S1 := by
          intro S1; unfold FState.whole; split <;> simp_all
        rw [h2] at hg'
        exact hg'
  | thread i t => exact hother e
  | spuriousThread i t => exact hother e
  | spuriousClient i => exact hother e

theorem good_fstep' (hn : ∀ i, 0 < (P i).threads) {F F' : FState P} {l : MLabel P} {S2 : MState P} (h : Between F)
    (hg : Good k rows file nB prog F.S) (hg2 : Good k rows file nB prog S2) (hS : nf F.whole = nf S2)
    (e : fstep F l = some F') :
    Between F' ∧ Good k rows file nB prog F'.S ∧ ∃ S3, Good k rows file nB prog S3 ∧ nf F'.whole = nf S3 := by
  obtain ⟨h1, h2⟩ := between_step h e hS
  obtain ⟨S3, hg3, hS3⟩ : ∃ S3, Good k rows file nB prog S3 ∧ nf F'.whole = nf S3 := by
    rcases h2 with ⟨S3, h3, h4, _⟩ | ⟨h3, _⟩
    · exact ⟨S3, good_step hn hg2 h3, h4⟩
    · exact ⟨S2, hg2, h3⟩
  have hg1 : Good k rows file nB prog F'.whole := good_nf.mp (hS3 ▸ good_nf.mpr hg3)
  exact ⟨h1, good_fstep hn hg hg1 e, S3, hg3, hS3⟩

theorem frun_good (hn : ∀ i, 0 < (P i).threads) {ls : List (MLabel P)} {F : FState P}
    (e : frun (finitial P k rows file nB prog) ls = some F) : Good k rows file nB prog F.S := by
  have key : ∀ (ls : List (MLabel P)) (F0 F : FState P) (S2 : MState P), Between F0 →
      Good k rows file nB prog F0.S → Good k rows file nB prog S2 → nf F0.whole = nf S2 →
      frun F0 ls = some F → Good k rows file nB prog F.S := by
    intro ls
    induction ls with
    | nil => intro F0 F S2 _ hg _ _ e; injection e with e; subst e; exact hg
    | cons l ls ih =>
      intro F0 F S2 hb hg hg2 hS e
      simp only [frun] at e
      obtain ⟨F1, e1, e2⟩ := Option.bind_eq_some_iff.mp e
      obtain ⟨h1, h2, S3, h3, h4⟩ := good_fstep' hn hb hg hg2 hS e1
      exact ih F1 F S3 h1 h2 h3 h4 e2
  exact key ls _ F _ between_initial good_initial good_initial rfl e

/-! ## No step takes more than one mutex -/

/-- The action takes a mutex. Not in the code. -/
def isAcquire {T M L : Type} : Act T M L → Bool
  | .acquire _ => true
  | _ => false

/-- How often mutexes are taken. -/
def acquires {T M L : Type} (l : List (Act T M L)) : Nat := l.countP isAcquire

theorem acquires_append {T M L : Type} (l l' : List (Act T M L)) : acquires (l ++ l') = acquires l + acquires l' :=
  List.countP_append

theorem acquires_zero {T M L A : Type} (l : List A) (f : A → Act T M L) (h : ∀ a, isAcquire (f a) = false) :
    acquires (l.map f) = 0 := by
  simp [acquires, List.countP_map, Function.comp_def, h]

theorem acquires_finish (i : Fin c) {V : Type} {n : Nat} (s : State V K n) : acquires (finishActs P i s) = 0 := rfl

theorem acquires_access (i : Fin c) {V : Type} {n : Nat} (s : State V K n) (k : Next V) :
    acquires (accessActs P i s k) = 0 := by
  unfold accessActs
  rw [acquires_append]
  split <;> rfl

theorem acquires_put (i : Fin c) {V : Type} {n : Nat} (s : State V K n) (row : Nat) (v : V) :
    acquires (putActs P i s row v) = 0 := by
  unfold putActs
  split
  · exact acquires_access i s _
  · rfl

theorem acquires_call {i : Fin c} {s : State (W i) K (P i).threads} (h : ∀ k, s.client ≠ .load k) :
    acquires (callActs i s) ≤ 1 := by
  unfold callActs
  split
  · split <;> exact Nat.le_refl _
  · rw [acquires_append]
    split
    · exact Nat.le_refl _
    · rw [acquires_access]; exact Nat.le_refl _
  · rename_i hk
    exact (h _ hk).elim
  · exact Nat.le_refl _
  · rw [acquires_append, acquires_zero _ _ fun _ => rfl]
    exact Nat.zero_le _
  · exact Nat.zero_le _

theorem acquires_events (l : List (MAct P)) (w : Thr P) :
    acquires ((l.map fun a => (⟨w, a⟩ : MEv P)).map Ev.act) = acquires l := by
  rw [List.map_map]
  congr 1
  exact List.map_id l

/-- Every step has at most one critical section. -/
theorem one_mutex {ls : List (MLabel P)} (hn : ∀ i, 0 < (P i).threads) {F : FState P}
    (e : frun (finitial P k rows file nB prog) ls = some F) (l : MLabel P) : acquires ((fevents F l).map Ev.act) ≤ 1 := by
  have hpl := (frun_good hn e).place
  unfold fevents
  split
  · exact Nat.le_refl _
  · rw [acquires_events]
    exact Nat.le_refl _
  · rename_i l _ _ _ h1 h2
    cases l with
    | client junk =>
      have hld : F.S.loading = none := by
        cases hx : F.S.loading with
        | none => rfl
        | some x =>
          cases hf : F.found with
          | none => exact (h1 junk x rfl hx hf).elim
          | some b => exact (h2 junk x.1 x.2 b rfl hx hf).elim
      show acquires ((F.S.clientActs.map fun a => (⟨none, a⟩ : MEv P)).map Ev.act) ≤ 1
      rw [acquires_events]
      unfold MState.clientActs
      cases hpc : F.S.pc with
      | idle =>
        simp only
        cases F.S.todo with
        | nil => exact Nat.zero_le _
        | cons op rest =>
          cases op with
          | put i row v =>
            simp only
            split
            · exact Nat.zero_le _
            · rw [acquires_put]; exact Nat.zero_le _
          | get i row =>
            simp only [getActs]
            split
            · exact Nat.zero_le _
            · exact Nat.le_refl _
          | close => exact Nat.zero_le _
      | call i =>
        refine acquires_call fun k hk => ?_
        rw [loading_of hpc hk] at hld
        cases hld
      | closing i =>
        refine acquires_call fun k hk => ?_
        unfold Place at hpl
        rw [hpc] at hpl
        have hk' : (F.S.cols i).client = .load k := hk
        have h3 := hpl.1
        rw [hk'] at h3
        cases h3
      | init i row v m =>
        simp only
        split
        · rw [acquires_append]
          split
          · exact Nat.le_refl _
          · unfold createActs
            rw [acquires_zero _ _ fun _ => rfl]
            exact Nat.le_refl _
        · exact Nat.zero_le _
      | header i row v =>
        simp only
        unfold headerActs
        rw [acquires_append, acquires_append, acquires_zero _ _ fun _ => rfl, acquires_put]
        exact Nat.zero_le _
      | close m =>
        simp only
        split <;> exact Nat.zero_le _
      | closed => exact Nat.zero_le _
      | failed => exact Nat.zero_le _
      | unsupported => exact Nat.zero_le _
    | thread i t =>
      show acquires (((threadActs P i (F.S.view i) t).map fun a => (⟨some ⟨i, t⟩, a⟩ : MEv P)).map Ev.act) ≤ 1
      rw [acquires_events]
      unfold threadActs
      split <;> first | exact Nat.le_refl _ | exact Nat.zero_le _
    | spuriousThread i t => exact Nat.zero_le _
    | spuriousClient i => exact Nat.zero_le _

/-! ## Data races -/

theorem test_ok {S : MState P} : Ok S none (fun _ => False) (testActs P) := by
  simp [testActs, Prog, mayHold]

theorem rest_ok {S : MState P} (i : Fin c) : Ok S none (fun _ => False) (restActs P i (S.view i)) := by
  have hv2 : (S.view i).stores = (S.cols i).stores := rfl
  exact prog_append (by simp [Prog, mayUse, mayRead, mayHold, curObj, hv2]) (finish_ok i)

theorem fevents_race {F F' : FState P} {l : MLabel P} {tr : List (MEv P)} (hs : Sound F.S) (h : RInv F.S tr)
    (e : fstep F l = some F') : RInv F'.S (tr ++ fevents F l) := by
  have hother : (∀ junk, l ≠ .client junk) → (mstep F.S l).map (fun S => (⟨S, F.found⟩ : FState P)) = some F' →
      RInv F'.S (tr ++ fevents F l) := by
    intro hl e
    obtain ⟨S1, e1, rfl⟩ := Option.map_eq_some_iff.mp e
    have h1 := race_step hs h e1
    unfold fevents
    split
    · exact (hl _ rfl).elim
    · exact (hl _ rfl).elim
    · exact h1
  cases l with
  | client junk =>
    change F.client junk = some F' at e
    unfold FState.client at e
    unfold fevents
    cases hld : F.S.loading with
    | none =>
      rw [hld] at e
      simp only at e
      obtain ⟨S1, e1, rfl⟩ := Option.map_eq_some_iff.mp e
      exact client_step hs h e1
    | some x =>
      obtain ⟨i, k⟩ := x
      obtain ⟨hp, hk⟩ := loading_eq hld
      rw [hld] at e
      cases hf : F.found with
      | none =>
        rw [hf] at e
        injection e with e
        subst e
        exact quiet_step hs h no_worker test_ok (quiet_refl rfl) (fun _ => Iff.rfl) id
      | some b =>
        rw [hf] at e
        injection e with e
        subst e
        have hu := uninit_of hp (by simp)
        refine quiet_step hs h no_worker (rest_ok i) (quiet_of (i := i)
          (s := (readBlock (P i) (F.S.view i) (k.row / F.S.rowsPerBlock) (junk i) b).finish k) (quiet_view ?_) rfl)
          (begun_same ?_ rfl) fun h1 => .inl (enter_early _ _ h1)
        · cases k <;> exact .refl rfl rfl rfl
        · intro j
          rw [hu, enter_uninit]
  | thread i t => exact hother (by simp) e
  | spuriousThread i t => exact hother (by simp) e
  | spuriousClient i => exact hother (by simp) e

/-- The program with `loadBlock` in two steps has no data race. -/
theorem split_no_data_race (hn : ∀ i, 0 < (P i).threads) {ls : List (MLabel P)} {F : FState P}
    (e : frun (finitial P k rows file nB prog) ls = some F) :
    RaceFree (firstEvents P rows ++ ftrace (finitial P k rows file nB prog) ls) := by
  have key : ∀ (ls : List (MLabel P)) (F0 F : FState P) (S2 : MState P) (tr : List (MEv P)), Between F0 →
      Good k rows file nB prog F0.S → Good k rows file nB prog S2 → nf F0.whole = nf S2 → RInv F0.S tr →
      frun F0 ls = some F → RaceFree (tr ++ ftrace F0 ls) := by
    intro ls
    induction ls with
    | nil => intro F0 F S2 tr _ _ _ _ h _; simpa [ftrace] using h.free
    | cons l ls ih =>
      intro F0 F S2 tr hb hg hg2 hS h e
      simp only [frun] at e
      obtain ⟨F1, e1, e2⟩ := Option.bind_eq_some_iff.mp e
      obtain ⟨h1, h2, S3, h3, h4⟩ := good_fstep' hn hb hg hg2 hS e1
      have := ih F1 F S3 _ h1 h2 h3 h4 (fevents_race (sound_of hn hg) h e1) e2
      simpa [ftrace, e1] using this
  exact key ls _ F _ _ between_initial good_initial good_initial rfl first_inv e

/-! ## Examples -/

/-- Column 1 is one block ahead of column 0. -/
def aheadProgram : List (MOp fun _ : Fin 2 => Nat) :=
  [.put 0 0 20, .put 0 1 21, .put 1 0 30, .put 1 1 31, .put 1 2 32, .put 1 3 33, .put 1 4 34, .put 0 2 22, .put 0 3 23,
    .get 0 2, .close]

/-- The schedule of the example. Not in the code. -/
def aheadRun : List (MLabel pair) :=
  [mc, mc, mc, mc, mc, mc, mc, mc, mc, mc, mc, mc, mc, mc, t1, t1, t1, mc, mc, mc, mc, mc, mc, t1, t1]

/-- Column 0 did not find block 1; then the thread of column 1 writes its part of this block. -/
example : ((frun (finitial pair 0 0 (fun _ _ => none) 0 aheadProgram) aheadRun).map fun F =>
    (F.S.loading.map fun x => x.2.row / F.S.rowsPerBlock, F.found, F.S.nBlocks)) = some (some 1, some false, 2) := by
  decide +kernel

/-- If `loadBlock` were one step at this point, the block would be read (its other row is the 0 that happens to be
there); as it is, the block remains empty but for the row that is put. -/
example : ((frun (finitial pair 0 0 (fun _ _ => none) 0 aheadProgram) aheadRun).bind fun F =>
      (fstep F mc).map fun F' => (F'.S.cols 0).buffer.get 1) = some none ∧
    ((frun (finitial pair 0 0 (fun _ _ => none) 0 aheadProgram) aheadRun).bind fun F =>
      (mstep F.S mc).map fun S => (S.cols 0).buffer.get 1) = some (some 0) := by
  decide +kernel

end Dysco.Multi
