import Verif.MultiProps

/-!
# Tables with one time block

All rows that are put into the columns of a new storage manager are of one time block. The rows per block are then
never known, no thread is started, and closing the manager raises an exception in `stopThreads`. `makeEmpty` is called by
the destructor of the manager only (dyscostman.cc:118), so that the exception ends the program.
-/

namespace Dysco.Multi
open Col

variable {K : Type} {c : Nat} {W : Fin c → Type} {P : (i : Fin c) → Params (W i) K}

/-- The calls hold a put to column `i`. Not in the code. -/
def HasPut (l : List (MOp W)) (i : Fin c) : Prop := ∃ row v, MOp.put i row v ∈ l

/-- All rows put to one column are of one time block. Not in the code. -/
def OneTime (P : (i : Fin c) → Params (W i) K) (l : List (MOp W)) : Prop :=
  ∀ i row v row' v', .put i row v ∈ l → .put i row' v' ∈ l → (P i).differs ((P i).key row) ((P i).key row') = false

/-- What is never different in a column of such a table: no threads, nothing in the file, only zeros were read.
Not in the code. -/
structure Still {V : Type} {n : Nat} (s : State V K n) : Prop where
  started : s.started = false
  threads : ∀ t, s.threads t = .done
  file : ∀ b, s.file b = none
  writes : s.writes = []
  outs : ∀ x ∈ s.outs, x.2 = .zero
  calm : s.client.wake = s.client

/-- A column before it is closed, after the calls `d`. Not in the code. -/
structure Open (P : (i : Fin c) → Params (W i) K) (d : List (MOp W)) (i : Fin c) (s : State (W i) K (P i).threads) : Prop where
  still : Still s
  client : s.client = .idle
  cache : s.cache = []
  held : (¬ HasPut d i ∧ s.changed = false ∧ s.buffer.len = 0) ∨
    (∃ row v, .put i row v ∈ d ∧ s.last = (P i).key row ∧ s.changed = true ∧ s.current = 0)

/-- A column that is closed. Not in the code. -/
structure Gone (l : List (MOp W)) (i : Fin c) (s : State (W i) K (P i).threads) : Prop where
  still : Still s
  client : s.client = .closed
  none : ¬ HasPut l i

/-- A column that is being closed. Not in the code. -/
structure Going (l : List (MOp W)) (i : Fin c) (s : State (W i) K (P i).threads) : Prop where
  still : Still s
  held : (s.client = .store .stop ∧ HasPut l i ∧ s.cache = [] ∧ s.current = 0) ∨
    (s.client = .stopLock ∧ HasPut l i ∧ s.cache ≠ []) ∨ (s.client = .stopLock ∧ ¬ HasPut l i ∧ s.cache = [])

/-- The manager of such a table. Not in the code. -/
structure One (P : (i : Fin c) → Params (W i) K) (l : List (MOp W)) (S : MState P) : Prop where
  rows : S.rowsPerBlock = 0
  blocks : S.nBlocks = 0
  still : ∀ i, Still (S.cols i)
  pc : (∃ d rest, l = d ++ rest ∧ S.pc = .idle ∧ S.todo = rest ++ [.close] ∧ ∀ i, Open P d i (S.cols i)) ∨
    (∃ k, S.pc = .close k ∧ (∀ i : Fin c, i.val < k → Gone l i (S.cols i)) ∧ ∀ i : Fin c, k ≤ i.val → Open P l i (S.cols i)) ∨
    (∃ i, S.pc = .closing i ∧ (∀ j, j < i → Gone l j (S.cols j)) ∧ Going l i (S.cols i) ∧
      ∀ j, i < j → Open P l j (S.cols j)) ∨
    (S.pc = .closed ∧ ∀ i, ¬ HasPut l i) ∨
    (S.pc = .failed ∧ ∃ i, HasPut l i ∧ (∀ j, j < i → ¬ HasPut l j) ∧ (S.cols i).cache ≠ [])

theorem hasPut_mono {d : List (MOp W)} {i : Fin c} (x : MOp W) (h : HasPut d i) : HasPut (d ++ [x]) i := by
  obtain ⟨row, v, h⟩ := h
  exact ⟨row, v, List.mem_append_left _ h⟩

/-- A call that is no put to column `i` leaves it open. -/
theorem Open.more {d : List (MOp W)} {i : Fin c} {s : State (W i) K (P i).threads} (h : Open P d i s) {x : MOp W}
    (hx : ∀ row v, x ≠ .put i row v) : Open P (d ++ [x]) i s := by
  refine ⟨h.still, h.client, h.cache, ?_⟩
  rcases h.held with ⟨h1, h2⟩ | ⟨row, v, h1, h2⟩
  · refine Or.inl ⟨?_, h2⟩
    rintro ⟨row, v, hm⟩
    rcases List.mem_append.1 hm with hm | hm
    · exact h1 ⟨row, v, hm⟩
    · exact hx row v (List.mem_singleton.1 hm).symm
  · exact Or.inr ⟨row, v, List.mem_append_left _ h1, h2⟩

/-- A put to an open column. -/
theorem Open.put {d : List (MOp W)} {i : Fin c} {s : State (W i) K (P i).threads} (h : Open P d i s) (h0 : s.rowsPerBlock = 0)
    {row : Nat} {v : W i} (hs : ∀ row' v', .put i row' v' ∈ d → (P i).differs ((P i).key row) ((P i).key row') = false) :
    startsBlocks (P i) s row = false ∧ Open P (d ++ [.put i row v]) i (State.put (P i) s row v) ∧
      (State.put (P i) s row v).nBlocks = s.nBlocks := by
  have hnew : MOp.put i row v ∈ d ++ [MOp.put i row v] := List.mem_append_right _ (List.mem_singleton.2 rfl)
  obtain ⟨st, hc, hca, hh⟩ := h
  unfold State.put startsBlocks
  rw [if_neg (by rw [h0]; simp)]
  by_cases hb : s.buffer.len = 0
  · rw [if_pos hb]
    refine ⟨by simp [hb], ⟨⟨st.started, st.threads, st.file, st.writes, st.outs, st.calm⟩, hc, hca, Or.inr ⟨row, v, hnew, rfl, rfl, rfl⟩⟩, rfl⟩
  · rw [if_neg hb]
    rcases hh with ⟨-, -, h3⟩ | ⟨row', v', h1, h2, h3, h4⟩
    · exact absurd h3 hb
    · have hd := hs row' v' h1
      rw [← h2] at hd
      rw [hd]
      refine ⟨by simp, ?_⟩
      simp only [Bool.false_eq_true, if_false, and_true]
      exact ⟨⟨st.started, st.threads, st.file, st.writes, st.outs, st.calm⟩, hc, hca,
        Or.inr ⟨row', v', List.mem_append_left _ h1, h2, rfl, h4⟩⟩

/-- A get from an open column reads zeros. -/
theorem Open.get {d : List (MOp W)} {i : Fin c} {s : State (W i) K (P i).threads} (h : Open P d i s) (h0 : s.rowsPerBlock = 0)
    (row : Nat) : Open P (d ++ [.get i row]) i (s.get row) ∧ (s.get row).nBlocks = s.nBlocks := by
  have hm := h.more (x := .get i row) (fun _ _ e => by cases e)
  unfold State.get
  rw [if_pos h0]
  refine ⟨⟨⟨h.still.started, h.still.threads, h.still.file, h.still.writes, ?_, h.still.calm⟩, h.client, h.cache, hm.held⟩, rfl⟩
  intro x hx
  rcases List.mem_append.1 hx with hx | hx
  · exact h.still.outs x hx
  · rw [List.mem_singleton.1 hx]

theorem Still.view {S : MState P} {i : Fin c} (h : Still (S.cols i)) : Still (S.view i) :=
  ⟨h.started, h.threads, h.file, h.writes, h.outs, h.calm⟩

theorem Open.view {d : List (MOp W)} {S : MState P} {i : Fin c} (h : Open P d i (S.cols i)) : Open P d i (S.view i) :=
  ⟨h.still.view, h.client, h.cache, h.held⟩

theorem Gone.view {d : List (MOp W)} {S : MState P} {i : Fin c} (h : Gone d i (S.cols i)) : Gone d i (S.view i) :=
  ⟨h.still.view, h.client, h.none⟩

theorem Going.view {d : List (MOp W)} {S : MState P} {i : Fin c} (h : Going d i (S.cols i)) : Going d i (S.view i) :=
  ⟨h.still.view, h.held⟩

/-- A property of the columns after a step of column `i`. -/
theorem set_cols {S : MState P} {i : Fin c} {s : State (W i) K (P i).threads}
    {Q : (j : Fin c) → State (W j) K (P j).threads → Prop} (h1 : Q i s) {j : Fin c} (h2 : j ≠ i → Q j (S.cols j)) :
    Q j ((S.set i s).cols j) := by
  by_cases hj : j = i
  · subst hj
    rw [set_self]
    exact h1
  · rw [set_same S s hj]
    exact h2 hj

/-- Writing back the state of a column changes nothing. -/
theorem One.refresh {l : List (MOp W)} {S : MState P} (h : One P l S) (i : Fin c) : One P l (S.set i (S.view i)) := by
  have key : ∀ {Q : (j : Fin c) → State (W j) K (P j).threads → Prop} {j : Fin c}, (Q i (S.cols i) → Q i (S.view i)) →
      Q j (S.cols j) → Q j ((S.set i (S.view i)).cols j) := by
    intro Q j hq hj
    by_cases hji : j = i
    · subst hji
      rw [set_self]
      exact hq hj
    · rw [set_same S _ hji]
      exact hj
  refine ⟨h.rows, h.blocks, fun j => key (Q := fun _ s => Still s) Still.view (h.still j), ?_⟩
  rcases h.pc with ⟨d, rest, e1, e2, e3, e4⟩ | ⟨k, e1, e2, e3⟩ | ⟨j, e1, e2, e3, e4⟩ | h | ⟨e1, j, e2, e3, e4⟩
  · exact Or.inl ⟨d, rest, e1, e2, e3, fun j => key (Q := Open P d) Open.view (e4 j)⟩
  · exact Or.inr (Or.inl ⟨k, e1, fun j hj => key (Q := Gone l) Gone.view (e2 j hj), fun j hj => key (Q := Open P l) Open.view (e3 j hj)⟩)
  · exact Or.inr (Or.inr (Or.inl ⟨j, e1, fun j hj => key (Q := Gone l) Gone.view (e2 j hj), key (Q := Going l) Going.view e3,
      fun j hj => key (Q := Open P l) Open.view (e4 j hj)⟩))
  · exact Or.inr (Or.inr (Or.inr (Or.inl h)))
  · exact Or.inr (Or.inr (Or.inr (Or.inr ⟨e1, j, e2, e3, key (Q := fun _ s => s.cache ≠ []) id e4⟩)))

/-- The next step of a column that is being closed. -/
theorem Going.step {l : List (MOp W)} {i : Fin c} {s s' : State (W i) K (P i).threads} (h : Going l i s) (hm : 1 ≤ (P i).maxCache)
    {junk : Nat → W i} (e : clientStep (P i) s junk = some s') :
    s'.nBlocks = s.nBlocks ∧ ((Going l i s' ∧ s'.client = .stopLock) ∨ Gone l i s' ∨
      (Still s' ∧ s'.client = .failed ∧ HasPut l i ∧ s'.cache ≠ [])) := by
  obtain ⟨st, hh⟩ := h
  unfold clientStep at e
  rcases hh with ⟨h1, h2, h3, h4⟩ | ⟨h1, h2, h3⟩ | ⟨h1, h2, h3⟩
  · rw [h1] at e
    injection e with e
    subst e
    unfold State.storeBlock
    have hnb : ¬ s.current = noBlock := by
      rw [h4]
      decide
    rw [if_neg hnb, if_neg (by rw [h3]; simp [Cache.has]; omega)]
    refine ⟨rfl, Or.inl ⟨⟨⟨st.started, fun t => ?_, st.file, st.writes, st.outs, rfl⟩, Or.inr (Or.inl ⟨rfl, h2, ?_⟩)⟩, rfl⟩⟩
    · simp only [st.threads t]
      rfl
    · rw [h3]
      simp [Cache.insert]
  · rw [h1] at e
    simp only [st.started, if_true, if_pos h3] at e
    injection e with e
    subst e
    exact ⟨rfl, Or.inr (Or.inr ⟨⟨rfl, st.threads, st.file, st.writes, st.outs, rfl⟩, rfl, h2, h3⟩)⟩
  · rw [h1] at e
    simp only [st.started, if_true, h3, ne_eq, not_true_eq_false, if_false] at e
    injection e with e
    subst e
    exact ⟨rfl, Or.inr (Or.inl ⟨⟨rfl, st.threads, st.file, st.writes, st.outs, rfl⟩, rfl, h2⟩)⟩

theorem one_step (hm : ∀ i, 1 ≤ (P i).maxCache) {l : List (MOp W)} (hl : .close ∉ l) (hs : OneTime P l) {S S' : MState P}
    {a : MLabel P} (h : One P l S) (e : mstep S a = some S') : One P l S' := by
  cases a with
  | thread i t =>
    simp only [mstep, threadStep] at e
    rw [show (S.view i).threads t = .done from (h.still i).threads t] at e
    cases e
  | spuriousThread i t =>
    simp only [mstep, step, Option.map_some] at e
    injection e with e
    rw [show ({ S.view i with threads := Function.update (S.view i).threads t ((S.view i).threads t).wake } :
        State (W i) K (P i).threads) = S.view i by
      rw [show ((S.view i).threads t).wake = (S.view i).threads t by
        rw [show (S.view i).threads t = .done from (h.still i).threads t]; rfl, Function.update_eq_self]] at e
    rw [← e]
    exact h.refresh i
  | spuriousClient i =>
    simp only [mstep, step, Option.map_some] at e
    injection e with e
    rw [show ({ S.view i with client := (S.view i).client.wake } : State (W i) K (P i).threads) = S.view i by
      rw [show (S.view i).client.wake = (S.view i).client from (h.still i).calm]] at e
    rw [← e]
    exact h.refresh i
  | client junk =>
    simp only [mstep] at e
    unfold MState.client at e
    have hrow : ∀ i, (S.view i).rowsPerBlock = 0 := fun i => h.rows
    rcases h.pc with ⟨d, rest, e1, e2, e3, e4⟩ | ⟨k, e1, e2, e3⟩ | ⟨i, e1, e2, e3, e4⟩ | ⟨h, -⟩ | ⟨h, -⟩
    · rw [e2] at e
      cases rest with
      | nil =>
        rw [e3] at e
        injection e with e
        subst e
        rw [List.append_nil] at e1
        subst e1
        exact ⟨h.rows, h.blocks, h.still, Or.inr (Or.inl ⟨0, rfl, fun i hi => absurd hi (by omega), fun i _ => e4 i⟩)⟩
      | cons x rest =>
        have hx : x ∈ l := e1 ▸ List.mem_append_right _ (List.mem_cons_self ..)
        have hsplit : l = (d ++ [x]) ++ rest := by rw [e1]; simp
        rw [e3] at e
        cases x with
        | close => exact absurd hx hl
        | put i row v =>
          obtain ⟨g1, g2, g3⟩ := (e4 i).view.put (hrow i) (row := row) (v := v) fun row' v' hm' =>
            hs i row v row' v' hx (e1 ▸ List.mem_append_left _ hm')
          simp only [List.cons_append, g1, Bool.false_eq_true, if_false] at e
          injection e with e
          have hopen : ∀ j, Open P (d ++ [.put i row v]) j ((MState.set { S with todo := rest ++ [.close] } i
              (State.put (P i) (S.view i) row v)).cols j) := fun j =>
            set_cols (S := { S with todo := rest ++ [.close] }) (Q := Open P (d ++ [.put i row v])) g2 fun hj =>
              (e4 j).more fun row' v' e' => hj (by cases e'; rfl)
          subst e
          refine ⟨h.rows, g3.trans h.blocks, fun j => (hopen j).still, Or.inl ⟨_, rest, hsplit, ?_, rfl, hopen⟩⟩
          unfold MState.enter
          simp only [g2.client]
        | get i row =>
          obtain ⟨g2, g3⟩ := (e4 i).view.get (hrow i) row
          simp only [List.cons_append] at e
          injection e with e
          have hopen : ∀ j, Open P (d ++ [.get i row]) j ((MState.set { S with todo := rest ++ [.close] } i
              ((S.view i).get row)).cols j) := fun j =>
            set_cols (S := { S with todo := rest ++ [.close] }) (Q := Open P (d ++ [.get i row])) g2 fun hj =>
              (e4 j).more fun row' v' e' => by cases e'
          subst e
          refine ⟨h.rows, g3.trans h.blocks, fun j => (hopen j).still, Or.inl ⟨_, rest, hsplit, ?_, rfl, hopen⟩⟩
          unfold MState.enter
          simp only [g2.client]
    · rw [e1] at e
      by_cases hk : k < c
      · simp only [hk, dif_pos] at e
        injection e with e
        have ho := e3 ⟨k, hk⟩ le_rfl
        have hg : Going l ⟨k, hk⟩ (State.call (P ⟨k, hk⟩) (S.view ⟨k, hk⟩) .close) ∧
            (State.call (P ⟨k, hk⟩) (S.view ⟨k, hk⟩) .close).nBlocks = S.nBlocks := by
          have st := ho.still
          unfold State.call
          rcases ho.held with ⟨g1, g2, g3⟩ | ⟨row, v, g1, g2, g3, g4⟩
          · rw [show (S.view ⟨k, hk⟩).changed = false from g2]
            exact ⟨⟨⟨st.started, st.threads, st.file, st.writes, st.outs, rfl⟩, Or.inr (Or.inr ⟨rfl, g1, ho.cache⟩)⟩, rfl⟩
          · rw [show (S.view ⟨k, hk⟩).changed = true from g3]
            exact ⟨⟨⟨st.started, st.threads, st.file, st.writes, st.outs, rfl⟩, Or.inl ⟨rfl, ⟨row, v, g1⟩, ho.cache, g4⟩⟩, rfl⟩
        subst e
        refine ⟨h.rows, hg.2.trans h.blocks, fun j => set_cols (Q := fun _ s => Still s) hg.1.still fun _ => h.still j,
          Or.inr (Or.inr (Or.inl ⟨⟨k, hk⟩, rfl, fun j hj => ?_, ?_, fun j hj => ?_⟩))⟩
        · have hne : j ≠ ⟨k, hk⟩ := hj.ne
          show Gone l j ((S.set _ _).cols j)
          rw [set_same S _ hne]
          exact e2 j hj
        · show Going l _ ((S.set _ _).cols _)
          rw [set_self]
          exact hg.1
        · have hne : j ≠ ⟨k, hk⟩ := hj.ne'
          show Open P l j ((S.set _ _).cols j)
          rw [set_same S _ hne]
          exact e3 j (le_of_lt hj)
      · simp only [hk, dif_neg, not_false_eq_true] at e
        injection e with e
        subst e
        exact ⟨h.rows, h.blocks, h.still, Or.inr (Or.inr (Or.inr (Or.inl ⟨rfl, fun i => (e2 i (by omega)).none⟩)))⟩
    · rw [e1] at e
      simp only [Option.map_eq_some_iff] at e
      obtain ⟨s', es, e⟩ := e
      obtain ⟨gb, g⟩ := e3.view.step (hm i) es
      have hst : Still s' := by
        rcases g with g | g | g
        · exact g.1.still
        · exact g.still
        · exact g.1
      have base : ∀ pc' : MPC W, (∀ j, Still (({ S.set i s' with pc := pc' } : MState P).cols j)) := fun pc' j =>
        set_cols (Q := fun _ s => Still s) hst fun _ => h.still j
      have lower : ∀ j, j < i → Gone l j ((S.set i s').cols j) := fun j hj => by
        rw [set_same S _ hj.ne]
        exact e2 j hj
      have upper : ∀ j, i < j → Open P l j ((S.set i s').cols j) := fun j hj => by
        rw [set_same S _ hj.ne']
        exact e4 j hj
      subst e
      refine ⟨h.rows, gb.trans h.blocks, base _, ?_⟩
      rcases g with ⟨g, gc⟩ | g | ⟨g, gc, gp, gca⟩
      · refine Or.inr (Or.inr (Or.inl ⟨i, by simp only [gc], lower, ?_, upper⟩))
        show Going l i ((S.set i s').cols i)
        rw [set_self]
        exact g
      · refine Or.inr (Or.inl ⟨i + 1, by simp only [g.client], fun j hj => ?_, fun j hj => upper j ?_⟩)
        · rcases lt_or_eq_of_le (show j ≤ i by exact Nat.lt_succ_iff.1 hj) with hj | hj
          · exact lower j hj
          · subst hj
            show Gone l j ((S.set j s').cols j)
            rw [set_self]
            exact g
        · exact Nat.lt_of_succ_le hj
      · refine Or.inr (Or.inr (Or.inr (Or.inr ⟨by simp only [gc], i, gp, fun j hj => (e2 j hj).none, ?_⟩)))
        show ((S.set i s').cols i).cache ≠ []
        rw [set_self]
        exact gca
    · rw [h] at e
      cases e
    · rw [h] at e
      cases e

theorem one_initial {k : K} {file : (i : Fin c) → Nat → Option (Rows (W i))} {nB : Nat} (l : List (MOp W)) :
    One P l (minitial P k 0 file nB (l ++ [.close])) := by
  have st : ∀ i, Still ((minitial P k 0 file nB (l ++ [.close])).cols i) := fun i =>
    ⟨rfl, fun _ => rfl, fun _ => rfl, rfl, fun x hx => (List.not_mem_nil hx).elim, rfl⟩
  exact ⟨rfl, rfl, st, Or.inl ⟨[], l, rfl, rfl, rfl, fun i => ⟨st i, rfl, rfl, Or.inl ⟨fun ⟨_, _, h⟩ => List.not_mem_nil h, rfl, rfl⟩⟩⟩⟩

/-- C139. The rows that are put into each column of a new manager are of one time block, rows are read at any time, and then
the manager is closed. Whatever the schedule, no column ever has a block in the file and every read gives zeros. If no row
was put the manager is closed without error; otherwise it is never closed, and the client stops with the exception that
`stopThreads` raises for the first column with rows. -/
theorem one_block (hm : ∀ i, 1 ≤ (P i).maxCache) {l : List (MOp W)} (hl : .close ∉ l) (hs : OneTime P l) {k : K}
    {file : (i : Fin c) → Nat → Option (Rows (W i))} {nB : Nat} {S : MState P}
    (h : MReachable (minitial P k 0 file nB (l ++ [.close])) S) :
    (∀ i, (S.cols i).writes = [] ∧ (∀ b, (S.cols i).file b = none) ∧ ∀ x ∈ (S.cols i).outs, x.2 = .zero) ∧
      S.nBlocks = 0 ∧ (S.pc = .closed → ∀ i, ¬ HasPut l i) ∧
      (S.pc = .failed → ∃ i, HasPut l i ∧ (∀ j, j < i → ¬ HasPut l j) ∧ (S.cols i).cache ≠ []) ∧
      ∀ junk, S.client junk = none → S.pc = .closed ∨ S.pc = .failed := by
  obtain ⟨ls, e⟩ := h
  have h := mrun_induct (fun _ _ _ => one_step hm hl hs) (one_initial l) e
  refine ⟨fun i => ⟨(h.still i).writes, (h.still i).file, (h.still i).outs⟩, h.blocks, fun hc => ?_, fun hf => ?_, fun junk hj => ?_⟩
  · rcases h.pc with ⟨d, rest, e1, e2, e3, e4⟩ | ⟨k, e1, e2, e3⟩ | ⟨i, e1, e2, e3, e4⟩ | ⟨-, h⟩ | ⟨h, -⟩
    · rw [hc] at e2; cases e2
    · rw [hc] at e1; cases e1
    · rw [hc] at e1; cases e1
    · exact h
    · rw [hc] at h; cases h
  · rcases h.pc with ⟨d, rest, e1, e2, e3, e4⟩ | ⟨k, e1, e2, e3⟩ | ⟨i, e1, e2, e3, e4⟩ | ⟨h, -⟩ | ⟨-, h⟩
    · rw [hf] at e2; cases e2
    · rw [hf] at e1; cases e1
    · rw [hf] at e1; cases e1
    · rw [hf] at h; cases h
    · exact h
  · unfold MState.client at hj
    rcases h.pc with ⟨d, rest, e1, e2, e3, e4⟩ | ⟨k, e1, e2, e3⟩ | ⟨i, e1, e2, e3, e4⟩ | ⟨h, -⟩ | ⟨h, -⟩
    · rw [e2, e3] at hj
      cases rest with
      | nil => cases hj
      | cons x rest =>
        cases x with
        | close => cases hj
        | get i row => cases hj
        | put i row v =>
          simp only [List.cons_append] at hj
          split at hj <;> cases hj
    · rw [e1] at hj
      by_cases hk : k < c
      · simp only [hk, dif_pos] at hj
        cases hj
      · simp only [hk, dif_neg, not_false_eq_true] at hj
        cases hj
    · rw [e1] at hj
      simp only [Option.map_eq_none_iff] at hj
      unfold clientStep at hj
      rcases e3.held with ⟨g, -⟩ | ⟨g, -⟩ | ⟨g, -⟩
      · rw [view_client, g] at hj
        cases hj
      · rw [view_client, g] at hj
        simp only [show (S.view i).started = false from e3.still.started, if_true] at hj
        split at hj <;> cases hj
      · rw [view_client, g] at hj
        simp only [show (S.view i).started = false from e3.still.started, if_true] at hj
        split at hj <;> cases hj
    · exact Or.inl h
    · exact Or.inr h

/-! ## Examples -/

/-- Two columns; rows 0 and 1 are of one time block. Column 0 has no rows, two rows are put to column 1 and read. -/
def oneProgram : List (MOp fun _ : Fin 2 => Nat) := [.put 1 0 30, .get 1 0, .put 1 1 31, .get 0 1, .get 1 1]

example : MOp.close ∉ oneProgram ∧ OneTime pair oneProgram := by
  refine ⟨fun h => ?_, ?_⟩
  · simp [oneProgram] at h
  · intro i row v row' v' h h'
    simp only [oneProgram, List.mem_cons, MOp.put.injEq, reduceCtorEq, List.not_mem_nil, or_false, false_or] at h h'
    have e : ∀ {j : Nat}, j = 0 ∨ j = 1 → demo.key j = demo.key 0 := by
      intro j hj
      rcases hj with rfl | rfl <;> rfl
    have h1 : row = 0 ∨ row = 1 := by tauto
    have h2 : row' = 0 ∨ row' = 1 := by tauto
    show demo.differs (demo.key row) (demo.key row') = false
    rw [e h1, e h2]
    rfl

/-- The client stopped with the exception. Not in the code. -/
def isFailedM : MPC W → Bool
  | .failed => true
  | _ => false

/-- A read gave zeros. Not in the code. -/
def isZero {V : Type} : Result V → Bool
  | .zero => true
  | _ => false

/-- Column 0 is closed, and column 1 raises the exception; the rows that were read are zero. -/
example : ∃ S, MReachable (minitial pair 0 0 (fun _ _ => none) 0 (oneProgram ++ [.close])) S ∧
    (isFailedM S.pc, (S.cols 0).outs.map (fun x => (x.1, isZero x.2)), (S.cols 1).outs.map (fun x => (x.1, isZero x.2))) =
      (true, [(1, true)], [(0, true), (1, true)]) :=
  mreachable_of_run (ls := [mc, mc, mc, mc, mc, mc, mc, mc, mc, mc, mc]) (by decide +kernel)

/-- Without rows the manager is closed. -/
example : ∃ S, MReachable (minitial pair 0 0 (fun _ _ => none) 0 ([.get 0 3] ++ [.close])) S ∧ isClosedM S.pc = true :=
  mreachable_of_run (ls := [mc, mc, mc, mc, mc, mc, mc]) (by decide +kernel)

end Dysco.Multi
