import Verif.CompressManager

/-!
# The same runs for two managers that have the same layout

Until the layout is fixed, nothing depends on the file and the header of the manager.

The examples are in `CompressSample.lean`.
-/

namespace Dysco.World
open Col Multi StMan End

variable {κ : Type} {c : Nat} {α : Fin c → Type} {P : (i : Fin c) → Params (DataRow (α i)) κ}

/-- Two managers become the same when the layout is fixed. -/
def SameLayout (m1 m2 : Man) : Prop :=
  ∀ rows ants, (initializeRowsPerBlock rows ants true m1).1 = (initializeRowsPerBlock rows ants true m2).1

theorem SameLayout.symm {m1 m2 : Man} (h : SameLayout m1 m2) : SameLayout m2 m1 := fun r a => (h r a).symm

/-- Two states of the runs with the two managers. -/
structure Twins (k : κ) (prog : List (MOp fun i => DataRow (α i))) (m1 m2 : Man) (w1 w2 : WState P) : Prop where
  reach : MReachable (minitial P k 0 (fun _ _ => none) 0 prog) w1.cols
  cols : w1.cols = w2.cols
  man : (w1.cols.rowsPerBlock = 0 ∨ initializing w1.cols) ∧ w1.man = m1 ∧ w2.man = m2 ∨
    w1.cols.rowsPerBlock ≠ 0 ∧ ¬ initializing w1.cols ∧ w1.man = w2.man

theorem Twins.symm {k : κ} {prog : List (MOp fun i => DataRow (α i))} {m1 m2 : Man} {w1 w2 : WState P}
    (h : Twins k prog m1 m2 w1 w2) : Twins k prog m2 m1 w2 w1 := by
  refine ⟨h.cols ▸ h.reach, h.cols.symm, ?_⟩
  rw [← h.cols]
  rcases h.man with ⟨a, b, d⟩ | ⟨a, b, d⟩
  · exact .inl ⟨a, d, b⟩
  · exact .inr ⟨a, b, d.symm⟩

theorem twins_step (hn : ∀ i, 0 < (P i).threads) {K : Codecs α} {k : κ} {prog : List (MOp fun i => DataRow (α i))}
    {m1 m2 : Man} (hs : SameLayout m1 m2) {w1 w2 w1' : WState P} {l : MLabel P} (h : Twins k prog m1 m2 w1 w2)
    (e : WStep K w1 l w1') : ∃ w2', WStep K w2 l w2' ∧ Twins k prog m1 m2 w1' w2' := by
  obtain ⟨e1, e2⟩ := e
  have hr := mreach_step h.reach e1
  obtain ⟨S, m⟩ := w2
  have hS : w1.cols = S := h.cols
  subst hS
  have hman : (w1.cols.rowsPerBlock = 0 ∨ initializing w1.cols) ∧ w1.man = m1 ∧ m = m2 ∨
      w1.cols.rowsPerBlock ≠ 0 ∧ ¬ initializing w1.cols ∧ w1.man = m := h.man
  by_cases hh : ∃ i row v junk, w1.cols.pc = .header i row v ∧ l = .client junk
  · obtain ⟨i, row, v, junk, hpc, rfl⟩ := hh
    have hp := (good_reachable hn h.reach).place
    unfold Place at hp
    rw [hpc] at hp
    obtain ⟨p1, p2, -⟩ := hp
    have he : w1'.cols = w1.cols.enter i (State.put (P i) (w1.cols.view i) row v) := by
      simp only [mstep, MState.client, hpc] at e1
      injection e1 with e1
      exact e1.symm
    have hw : w1.man = m1 ∧ m = m2 := by
      rcases hman with hb | hb
      · exact hb.2
      · exact absurd (.inr ⟨_, _, _, hpc⟩) hb.2.1
    refine ⟨⟨w1'.cols, w1'.man⟩, ⟨e1, ?_⟩, hr, rfl, .inr ⟨?_, ?_, rfl⟩⟩
    · unfold Effect at e2 ⊢
      simp only [hpc] at e2 ⊢
      obtain ⟨a, a1, a2⟩ := e2
      refine ⟨a, a1, ?_⟩
      rw [a2, hw.1, hw.2]
      exact hs _ _
    · rw [show w1'.cols.rowsPerBlock = w1.cols.rowsPerBlock by rw [he]; rfl, p1]
      exact p2
    · rw [he]
      exact enter_pc _ _ _
  · push Not at hh
    rcases hman with ⟨b1, b2, b3⟩ | ⟨b1, b2, b3⟩
    · have hl : ∀ i t b r, l = .thread i t → (w1.cols.cols i).threads t ≠ .encode b r :=
        fun i t b r _ => unlaid_threads hn h.reach b1 i t b r
      have hno : ∀ i kk, w1.cols.pc = .call i → (w1.cols.cols i).client ≠ .load kk := by
        intro i kk h1 h2
        have h0 : w1.cols.rowsPerBlock = 0 := by
          rcases b1 with b1 | ⟨_, _, _, _, b1⟩ | ⟨_, _, _, b1⟩
          · exact b1
          · rw [h1] at b1; cases b1
          · rw [h1] at b1; cases b1
        obtain ⟨done, -, -, -, hr⟩ := column_alone hn h.reach i
        have hi := (initial_reachable_inv (hn i) (hr [])).client
        unfold ClientOK at hi
        rw [show (proj w1.cols i []).client = .load kk from h2] at hi
        refine hi.2 ?_
        show (if uninit w1.cols i then 0 else w1.cols.rowsPerBlock) = 0
        rw [h0]; split <;> rfl
      have hst : w1'.cols.rowsPerBlock = 0 ∨ initializing w1'.cols := by
        rcases unlaid_step b1 (fun i row v junk hx => hh i row v junk hx.1 hx.2) e1 with h1 | h1 | ⟨⟨i, row, v, m, h1⟩, h2⟩
        · exact .inl h1
        · exact .inr h1
        · obtain ⟨j, hj⟩ := init_succeeds hn h.reach e1 h2 (by rw [h1]; simp)
          rw [h1] at hj; cases hj
      have hm : w1'.man = w1.man := by
        rcases other_effect hl hh e2 with h1 | ⟨i, kk, dest, h1, h2, -⟩
        · exact h1
        · exact absurd h2 (hno i kk h1)
      refine ⟨⟨w1'.cols, m⟩, ⟨e1, ?_⟩, hr, rfl, .inl ⟨hst, hm.trans b2, b3⟩⟩
      unfold Effect
      cases l with
      | client junk =>
        simp only
        split
        · rename_i hpc
          exact absurd rfl (hh _ _ _ junk hpc)
        · rename_i hpc
          split
          · rename_i hk
            exact absurd hk (hno _ _ hpc)
          · trivial
        · trivial
      | thread i t =>
        simp only
        split
        · rename_i hx
          exact absurd hx (hl i t _ _ rfl)
        · trivial
      | spuriousThread i t => rfl
      | spuriousClient i => rfl
    · subst b3
      obtain ⟨s1, s2⟩ := laid_step b1 b2 e1
      exact ⟨w1', ⟨e1, e2⟩, hr, rfl, .inr ⟨by rw [s1]; exact b1, s2, rfl⟩⟩

theorem twins_reach (hn : ∀ i, 0 < (P i).threads) {K : Codecs α} {k : κ} {prog : List (MOp fun i => DataRow (α i))}
    {m1 m2 : Man} (hs : SameLayout m1 m2) {w1 w2 w1' : WState P} (h : Twins k prog m1 m2 w1 w2)
    (e : WReach K w1 w1') : ∃ w2', WReach K w2 w2' ∧ Twins k prog m1 m2 w1' w2' := by
  induction e with
  | start => exact ⟨w2, .start, h⟩
  | step _ e ih =>
    obtain ⟨w2', r, t⟩ := ih
    obtain ⟨w2'', s, t'⟩ := twins_step hn hs t e
    exact ⟨w2'', .step r s, t'⟩

theorem twins_start (k : κ) (prog : List (MOp fun i => DataRow (α i))) (m1 m2 : Man) :
    Twins (P := P) k prog m1 m2 ⟨minitial P k 0 (fun _ _ => none) 0 prog, m1⟩ ⟨minitial P k 0 (fun _ _ => none) 0 prog, m2⟩ :=
  ⟨⟨[], rfl⟩, rfl, .inl ⟨.inl rfl, rfl, rfl⟩⟩

end Dysco.World
