import Verif.WorldModel
import Verif.EndProps

/-! # Lemmas on the columns and the bytes of the file -/

namespace Dysco.World
open Col Multi StMan End BytePacker Layout

/-! ## What the steps write -/

theorem access_writes {V κ : Type} {n : Nat} (s : State V κ n) (k : Next V) : (s.access k).writes = s.writes := by
  unfold State.access
  split
  · split <;> rfl
  · cases k <;> rfl

theorem put_writes {V κ : Type} {n : Nat} (p : Params V κ) (s : State V κ n) (row : Nat) (v : V) :
    (State.put p s row v).writes = s.writes := by
  unfold State.put
  split
  · exact access_writes _ _
  · split
    · rfl
    · split
      · split
        · rfl
        · split
          · rfl
          · exact access_writes _ _
      · rfl

theorem get_writes {V κ : Type} {n : Nat} (s : State V κ n) (row : Nat) : (State.get s row).writes = s.writes := by
  unfold State.get
  split
  · rfl
  · split <;> rfl

theorem close_writes {V κ : Type} {n : Nat} (p : Params V κ) (s : State V κ n) :
    (State.call p s .close).writes = s.writes := by
  unfold State.call
  simp only
  split <;> rfl

theorem client_writes {V κ : Type} {n : Nat} {p : Params V κ} {s s' : State V κ n} {junk : Nat → V} (ht : s.todo = [])
    (e : clientStep p s junk = some s') : s'.writes = s.writes := by
  unfold clientStep at e
  match hpc : s.client with
  | .idle => simp only [hpc, ht] at e; cases e
  | .store k =>
    simp only [hpc] at e
    injection e with e; subst e
    unfold State.storeBlock
    split
    · rfl
    · split <;> rfl
  | .getLock row =>
    simp only [hpc] at e
    split at e
    · injection e with e; subst e; rfl
    · injection e with e; subst e; exact access_writes _ _
  | .load k =>
    simp only [hpc] at e
    injection e with e; subst e
    cases k <;> rfl
  | .stopLock =>
    simp only [hpc] at e
    split at e
    · split at e <;> (injection e with e; subst e; rfl)
    · split at e <;> (injection e with e; subst e; rfl)
  | .join =>
    simp only [hpc] at e
    split at e
    · injection e with e; subst e; rfl
    · cases e
  | .prepStart =>
    simp only [hpc] at e
    injection e with e; subst e; rfl
  | .prepLock =>
    simp only [hpc] at e
    split at e
    · split at e <;> (injection e with e; subst e; rfl)
    · split at e <;> (injection e with e; subst e; rfl)
  | .prepJoin =>
    simp only [hpc] at e
    split at e
    · injection e with e; subst e; split <;> rfl
    · cases e
  | .storeWait _ | .getWait _ | .stopWait | .prepWait | .closed | .failed | .unsupported =>
    simp only [hpc] at e; cases e

section
variable {κ : Type} {c : Nat} {W : Fin c → Type} {P : (i : Fin c) → Params (W i) κ}

theorem set_writes {S : MState P} {i : Fin c} {s : State (W i) κ (P i).threads} (h : s.writes = (S.cols i).writes)
    (j : Fin c) : ((S.set i s).cols j).writes = (S.cols j).writes := by
  by_cases hj : j = i
  · subst hj
    simp [MState.set, h]
  · simp [MState.set, Function.update_of_ne hj]

/-- The client writes no block. -/
theorem mclient_writes {S S' : MState P} {junk : (i : Fin c) → Nat → W i} (e : S.client junk = some S') (j : Fin c) :
    (S'.cols j).writes = (S.cols j).writes := by
  unfold MState.client at e
  cases hpc : S.pc with
  | idle =>
    simp only [hpc] at e
    cases ht : S.todo with
    | nil => rw [ht] at e; cases e
    | cons op rest =>
      rw [ht] at e
      cases op with
      | put i row v =>
        simp only at e
        split at e
        · injection e with e; subst e; rfl
        · injection e with e; subst e
          exact set_writes (S := { S with todo := rest }) (put_writes (P i) (S.view i) row v) j
      | get i row =>
        injection e with e; subst e
        exact set_writes (S := { S with todo := rest }) (get_writes (S.view i) row) j
      | close => injection e with e; subst e; rfl
  | call i =>
    simp only [hpc, Option.map_eq_some_iff] at e
    obtain ⟨s, e1, rfl⟩ := e
    exact set_writes (S := S) (client_writes (s := S.view i) rfl e1) j
  | init i row v k =>
    simp only [hpc] at e
    split at e
    · split at e
      · injection e with e; subst e; rfl
      · injection e with e; subst e
        rename_i h _
        exact set_writes (S := S) (i := ⟨k, h⟩) (s := (S.view ⟨k, h⟩).start) rfl j
    · injection e with e; subst e; rfl
  | header i row v =>
    simp only [hpc] at e
    injection e with e; subst e
    exact set_writes (S := S) (put_writes (P i) (S.view i) row v) j
  | close k =>
    simp only [hpc] at e
    split at e
    · rename_i h
      injection e with e; subst e
      exact set_writes (S := S) (close_writes (P ⟨k, h⟩) (S.view ⟨k, h⟩)) j
    · injection e with e; subst e; rfl
  | closing i =>
    simp only [hpc, Option.map_eq_some_iff] at e
    obtain ⟨s, e1, rfl⟩ := e
    exact set_writes (S := S) (client_writes (s := S.view i) rfl e1) j
  | closed | failed | unsupported => simp only [hpc] at e; cases e

/-- An encoder thread that is not encoding writes no block. -/
theorem thread_writes {V : Type} {n : Nat} {s s' : State V κ n} {t : Fin n} (h : ∀ b r, s.threads t ≠ .encode b r)
    (e : threadStep s t = some s') : s'.writes = s.writes := by
  unfold threadStep at e
  match hpc : s.threads t with
  | .head =>
    simp only [hpc] at e
    split at e
    · injection e with e; subst e; rfl
    · injection e with e; subst e
      unfold State.seek
      split <;> rfl
  | .woken =>
    simp only [hpc] at e
    injection e with e; subst e
    unfold State.seek
    split <;> rfl
  | .encode b r => exact absurd hpc (h b r)
  | .written b =>
    simp only [hpc] at e
    injection e with e; subst e; rfl
  | .wait | .done => simp only [hpc] at e; cases e

theorem encode_writes {V : Type} {n : Nat} {s s' : State V κ n} {t : Fin n} {b : Nat} {r : Rows V}
    (h : s.threads t = .encode b r) (e : threadStep s t = some s') : s'.writes = s.writes ++ [(b, r)] := by
  unfold threadStep at e
  simp only [h] at e
  split at e
  · cases e
  · injection e with e; subst e; rfl

/-! ## The rows per block -/

/-- `initializeRowsPerBlock` is running. -/
def initializing (S : MState P) : Prop :=
  (∃ i row v m, S.pc = .init i row v m) ∨ ∃ i row v, S.pc = .header i row v

theorem set_pc (S : MState P) (i : Fin c) (s : State (W i) κ (P i).threads) : (S.set i s).pc = S.pc := rfl

theorem enter_pc (S : MState P) (i : Fin c) (s : State (W i) κ (P i).threads) : ¬ initializing (S.enter i s) := by
  unfold initializing MState.enter
  cases s.client <;> simp

theorem enter_rpb (S : MState P) (i : Fin c) (s : State (W i) κ (P i).threads) :
    (S.enter i s).rowsPerBlock = S.rowsPerBlock := rfl

/-- Once known, the rows per block stay the same and are not initialized again. -/
theorem laid_step {S S' : MState P} {l : MLabel P} (h1 : S.rowsPerBlock ≠ 0) (h2 : ¬ initializing S)
    (e : mstep S l = some S') : S'.rowsPerBlock = S.rowsPerBlock ∧ ¬ initializing S' := by
  cases l with
  | thread i t =>
    simp only [mstep, Option.map_eq_some_iff] at e
    obtain ⟨s, -, rfl⟩ := e
    exact ⟨rfl, h2⟩
  | spuriousThread i t =>
    simp only [mstep, Option.map_eq_some_iff] at e
    obtain ⟨s, -, rfl⟩ := e
    exact ⟨rfl, h2⟩
  | spuriousClient i =>
    simp only [mstep, Option.map_eq_some_iff] at e
    obtain ⟨s, -, rfl⟩ := e
    exact ⟨rfl, h2⟩
  | client junk =>
    simp only [mstep] at e
    unfold MState.client at e
    cases hpc : S.pc with
    | idle =>
      simp only [hpc] at e
      cases ht : S.todo with
      | nil => rw [ht] at e; cases e
      | cons op rest =>
        rw [ht] at e
        cases op with
        | put i row v =>
          simp only at e
          split at e
          · rename_i hs
            unfold startsBlocks at hs
            have : (S.view i).rowsPerBlock ≠ 0 := h1
            simp [this] at hs
          · injection e with e; subst e
            exact ⟨rfl, enter_pc _ _ _⟩
        | get i row => injection e with e; subst e; exact ⟨rfl, enter_pc _ _ _⟩
        | close => injection e with e; subst e; exact ⟨rfl, by simp [initializing]⟩
    | call i =>
      simp only [hpc, Option.map_eq_some_iff] at e
      obtain ⟨s, e1, rfl⟩ := e
      exact ⟨rfl, enter_pc _ _ _⟩
    | init i row v k => exact absurd (.inl ⟨_, _, _, _, hpc⟩) h2
    | header i row v => exact absurd (.inr ⟨_, _, _, hpc⟩) h2
    | close k =>
      simp only [hpc] at e
      split at e
      · injection e with e; subst e
        exact ⟨rfl, by simp [initializing]⟩
      · injection e with e; subst e; exact ⟨rfl, by simp [initializing]⟩
    | closing i =>
      simp only [hpc, Option.map_eq_some_iff] at e
      obtain ⟨s, e1, rfl⟩ := e
      refine ⟨rfl, ?_⟩
      unfold initializing
      cases s.client <;> simp
    | closed | failed | unsupported => simp only [hpc] at e; cases e

/-- Before, they stay unknown until the initialization ends with the header. -/
theorem unlaid_step {S S' : MState P} {l : MLabel P} (h : S.rowsPerBlock = 0 ∨ initializing S)
    (h2 : ∀ i row v junk, ¬ (S.pc = .header i row v ∧ l = .client junk))
    (e : mstep S l = some S') : S'.rowsPerBlock = 0 ∨ initializing S' ∨ (∃ i row v m, S.pc = .init i row v m) ∧ S'.pc = .failed := by
  have set : ∀ (i : Fin c) s, (S.set i s).rowsPerBlock = 0 ∨ initializing (S.set i s) ∨
      (∃ i row v m, S.pc = .init i row v m) ∧ (S.set i s).pc = .failed :=
    fun i s => h.elim .inl fun h => .inr (.inl h)
  cases l with
  | thread i t =>
    simp only [mstep, Option.map_eq_some_iff] at e
    obtain ⟨s, -, rfl⟩ := e
    exact set i s
  | spuriousThread i t =>
    simp only [mstep, Option.map_eq_some_iff] at e
    obtain ⟨s, -, rfl⟩ := e
    exact set i s
  | spuriousClient i =>
    simp only [mstep, Option.map_eq_some_iff] at e
    obtain ⟨s, -, rfl⟩ := e
    exact set i s
  | client junk =>
    simp only [mstep] at e
    unfold MState.client at e
    cases hpc : S.pc with
    | idle =>
      have h : S.rowsPerBlock = 0 := by
        rcases h with h | ⟨_, _, _, _, h⟩ | ⟨_, _, _, h⟩
        · exact h
        · rw [hpc] at h; cases h
        · rw [hpc] at h; cases h
      simp only [hpc] at e
      cases ht : S.todo with
      | nil => rw [ht] at e; cases e
      | cons op rest =>
        rw [ht] at e
        cases op with
        | put i row v =>
          simp only at e
          split at e
          · injection e with e; subst e; exact .inr (.inl (.inl ⟨i, row, v, 0, rfl⟩))
          · injection e with e; subst e; exact .inl h
        | get i row => injection e with e; subst e; exact .inl h
        | close => injection e with e; subst e; exact .inl h
    | call i =>
      have h : S.rowsPerBlock = 0 := by
        rcases h with h | ⟨_, _, _, _, h⟩ | ⟨_, _, _, h⟩
        · exact h
        · rw [hpc] at h; cases h
        · rw [hpc] at h; cases h
      simp only [hpc, Option.map_eq_some_iff] at e
      obtain ⟨s, e1, rfl⟩ := e
      exact .inl h
    | init i row v k =>
      simp only [hpc] at e
      split at e
      · split at e
        · injection e with e; subst e; exact .inr (.inr ⟨⟨i, row, v, k, rfl⟩, rfl⟩)
        · injection e with e; subst e; exact .inr (.inl (.inl ⟨i, row, v, k + 1, rfl⟩))
      · injection e with e; subst e; exact .inr (.inl (.inr ⟨i, row, v, rfl⟩))
    | header i row v => exact absurd ⟨hpc, rfl⟩ (h2 i row v junk)
    | close k =>
      have h : S.rowsPerBlock = 0 := by
        rcases h with h | ⟨_, _, _, _, h⟩ | ⟨_, _, _, h⟩
        · exact h
        · rw [hpc] at h; cases h
        · rw [hpc] at h; cases h
      simp only [hpc] at e
      split at e <;> (injection e with e; subst e; exact .inl h)
    | closing i =>
      have h : S.rowsPerBlock = 0 := by
        rcases h with h | ⟨_, _, _, _, h⟩ | ⟨_, _, _, h⟩
        · exact h
        · rw [hpc] at h; cases h
        · rw [hpc] at h; cases h
      simp only [hpc, Option.map_eq_some_iff] at e
      obtain ⟨s, e1, rfl⟩ := e
      exact .inl h
    | closed | failed | unsupported => simp only [hpc] at e; cases e

/-- No thread has a block before the rows per block are known. -/
theorem unlaid_threads (hn : ∀ i, 0 < (P i).threads) {k : κ} {nB : Nat} {prog : List (MOp W)} {S : MState P}
    (h : MReachable (minitial P k 0 (fun _ _ => none) nB prog) S) (hu : S.rowsPerBlock = 0 ∨ initializing S)
    (i : Fin c) (t : Fin (P i).threads) (b : Nat) (r : Rows (W i)) : (S.cols i).threads t ≠ .encode b r := by
  rcases hu with hu | hu
  · obtain ⟨done, -, -, -, hr⟩ := column_alone hn h i
    have hi := initial_reachable_inv (hn i) (hr [])
    have h0 : (proj S i []).rowsPerBlock = 0 := by
      show (if uninit S i then 0 else S.rowsPerBlock) = 0
      rw [hu]; split <;> rfl
    have := hi.core.idle (hi.offsets h0) t
    intro hx
    have h1 : (S.cols i).threads t = .done := this
    rw [h1] at hx; cases hx
  · exact (header_alone hn h hu i t).2.1 b r

end

/-! ## The bytes -/

variable {κ : Type} {c : Nat} {α : Fin c → Type} {P : (i : Fin c) → Params (DataRow (α i)) κ}

theorem blockStep_columns (m : Man) (op : BlockOp) :
    (blockStep m op).columns = m.columns ∧ (blockStep m op).rowsPerBlock = m.rowsPerBlock := by
  cases op with
  | write b i d =>
    simp only [blockStep]
    split
    · exact ⟨rfl, rfl⟩
    · unfold writeCompressedData
      simp only
      split <;> exact ⟨rfl, rfl⟩
  | read b i d =>
    simp only [blockStep]
    split
    · exact ⟨rfl, rfl⟩
    · split
      · unfold readCompressedData
        simp only
        split
        · split <;> exact ⟨rfl, rfl⟩
        · exact ⟨rfl, rfl⟩
      · exact ⟨rfl, rfl⟩
  | header =>
    simp only [blockStep]
    unfold writeHeader
    split <;> exact ⟨rfl, rfl⟩

theorem blockSteps_columns (ops : List BlockOp) (m : Man) :
    (ops.foldl blockStep m).columns = m.columns ∧ (ops.foldl blockStep m).rowsPerBlock = m.rowsPerBlock := by
  induction ops generalizing m with
  | nil => exact ⟨rfl, rfl⟩
  | cons op ops ih =>
    obtain ⟨h1, h2⟩ := ih (blockStep m op)
    obtain ⟨h3, h4⟩ := blockStep_columns m op
    exact ⟨h1.trans h3, h2.trans h4⟩

theorem colWrites_append (i : Nat) (a b : List BlockOp) : colWrites i (a ++ b) = colWrites i a ++ colWrites i b :=
  List.filterMap_append

/-- The layout was fixed in a state of the run, for `rows` rows and the antennas of the rows of the column that
was being written. -/
def LaidOut (k : κ) (prog : List (MOp fun i => DataRow (α i))) (P : (i : Fin c) → Params (DataRow (α i)) κ)
    (rows ants : Nat) : Prop :=
  ∃ S : MState P, MReachable (minitial P k 0 (fun _ _ => none) 0 prog) S ∧ ∃ i row v a, S.pc = .header i row v ∧
    S.rowsPerBlock = rows ∧ TimeBlock.maxAntennaIndex (antennas (S.cols i).buffer) = some a ∧ ants = a + 1

/-- The file operations of every column are its writes. -/
def AllImplement (K : Codecs α) (m : Man) (ops : List BlockOp) (S : MState P) : Prop :=
  ∀ (i : Fin c) col, m.columns[i.val]? = some col →
    Implements (K i m.rowsPerBlock col) col m.rowsPerBlock i ops (S.cols i).writes

/-- Invariant: the file holds the blocks that the columns wrote. Not in the code. -/
structure WInv (K : Codecs α) (k : κ) (nRow : Nat) (mt : Man) (prog : List (MOp fun i => DataRow (α i)))
    (w : WState P) : Prop where
  reach : MReachable (minitial P k 0 (fun _ _ => none) 0 prog) w.cols
  bytes : ((w.cols.rowsPerBlock = 0 ∨ initializing w.cols) ∧ w.man = (prepare (create nRow mt)).1 ∧
      ∀ i, (w.cols.cols i).writes = []) ∨
    (w.cols.rowsPerBlock ≠ 0 ∧ ¬ initializing w.cols ∧
      ∃ ants ops, LaidOut k prog P w.cols.rowsPerBlock ants ∧
        w.man = ops.foldl blockStep (newTable nRow w.cols.rowsPerBlock ants mt) ∧
        AllImplement K (newTable nRow w.cols.rowsPerBlock ants mt) ops w.cols)

theorem mreach_step {W : Fin c → Type} {P : (i : Fin c) → Params (W i) κ} {S0 S S' : MState P} {l : MLabel P}
    (h : MReachable S0 S) (e : mstep S l = some S') : MReachable S0 S' := by
  obtain ⟨ls, h⟩ := h
  refine ⟨ls ++ [l], ?_⟩
  induction ls generalizing S0 with
  | nil =>
    injection h with h; subst h
    show (mstep S0 l).bind _ = _
    rw [e]; rfl
  | cons a ls ih =>
    simp only [mrun, List.cons_append] at h ⊢
    cases h1 : mstep S0 a with
    | none => rw [h1] at h; cases h
    | some S1 => rw [h1] at h; exact ih h

theorem implements_same {K : Codecs α} {m : Man} {ops ops' : List BlockOp} {S S' : MState P}
    (h : AllImplement K m ops S) (hw : ∀ j, (S'.cols j).writes = (S.cols j).writes)
    (ho : ∀ j, colWrites j ops' = colWrites j ops) : AllImplement K m ops' S' := by
  intro i col hc
  have := h i col hc
  unfold Implements at this ⊢
  rw [hw, ho]
  exact this

/-- A step that is not a write of an encoder thread writes no block. -/
theorem other_writes {W : Fin c → Type} {P : (i : Fin c) → Params (W i) κ} {S S' : MState P} {l : MLabel P}
    (hl : ∀ i t b r, l = .thread i t → (S.cols i).threads t ≠ .encode b r) (e : mstep S l = some S') (j : Fin c) :
    (S'.cols j).writes = (S.cols j).writes := by
  cases l with
  | client junk => exact mclient_writes e j
  | thread i t =>
    simp only [mstep, Option.map_eq_some_iff] at e
    obtain ⟨s, e1, rfl⟩ := e
    exact set_writes (S := S) (thread_writes (s := S.view i) (fun b r => hl i t b r rfl) e1) j
  | spuriousThread i t =>
    simp only [mstep, step, Option.map_some, Option.some.injEq] at e
    subst e
    refine set_writes (S := S) (i := i) ?_ j
    rfl
  | spuriousClient i =>
    simp only [mstep, step, Option.map_some, Option.some.injEq] at e
    subst e
    refine set_writes (S := S) (i := i) ?_ j
    rfl

/-- What a step that does not write a block and does not fix the layout does to the manager: nothing, or it reads a
block. -/
theorem other_effect {K : Codecs α} {S : MState P} {l : MLabel P} {m m' : Man}
    (hl : ∀ i t b r, l = .thread i t → (S.cols i).threads t ≠ .encode b r)
    (hh : ∀ i row v junk, S.pc = .header i row v → l ≠ .client junk) (e : Effect K S l m m') :
    m' = m ∨ ∃ i k dest, S.pc = .call i ∧ (S.cols i).client = .load k ∧
      m' = blockStep m (.read (k.row / S.rowsPerBlock) i dest) := by
  unfold Effect at e
  cases l with
  | client junk =>
    simp only at e
    split at e
    · rename_i hpc
      exact absurd rfl (hh _ _ _ junk hpc)
    · rename_i hpc
      split at e
      · rename_i hk
        obtain ⟨dest, e⟩ := e
        exact .inr ⟨_, _, dest, hpc, hk, e⟩
      · exact .inl e
    · exact .inl e
  | thread i t =>
    simp only at e
    split at e
    · rename_i hx
      exact absurd hx (hl i t _ _ rfl)
    · exact .inl e
  | spuriousThread i t => exact .inl e
  | spuriousClient i => exact .inl e

theorem winv_step (hn : ∀ i, 0 < (P i).threads) {K : Codecs α} {k : κ} {nRow : Nat} {mt : Man}
    {prog : List (MOp fun i => DataRow (α i))} {w w' : WState P} {l : MLabel P}
    (h : WInv K k nRow mt prog w) (e : WStep K w l w') : WInv K k nRow mt prog w' := by
  obtain ⟨e1, e2⟩ := e
  refine ⟨mreach_step h.reach e1, ?_⟩
  by_cases hh : ∃ i row v junk, w.cols.pc = .header i row v ∧ l = .client junk
  · -- the layout is fixed
    right
    obtain ⟨i, row, v, junk, hpc, rfl⟩ := hh
    have hp := (good_reachable hn h.reach).place
    unfold Place at hp
    rw [hpc] at hp
    obtain ⟨p1, p2, -⟩ := hp
    unfold Effect at e2
    simp only [hpc] at e2
    obtain ⟨a, a1, a2⟩ := e2
    have hw : w.man = (prepare (create nRow mt)).1 ∧ ∀ i, (w.cols.cols i).writes = [] := by
      rcases h.bytes with hb | hb
      · exact hb.2
      · exact absurd (.inr ⟨_, _, _, hpc⟩) hb.2.1
    have hs := mclient_writes (S := w.cols) e1
    have he : w'.cols = w.cols.enter i (State.put (P i) (w.cols.view i) row v) := by
      simp only [mstep, MState.client, hpc] at e1
      injection e1 with e1
      exact e1.symm
    have hr : w'.cols.rowsPerBlock = w.cols.rowsPerBlock := by rw [he]; rfl
    rw [hr]
    refine ⟨by rw [p1]; exact p2, by rw [he]; exact enter_pc _ _ _, a + 1, [],
      ⟨w.cols, h.reach, i, row, v, a, hpc, rfl, a1, rfl⟩, ?_, ?_⟩
    · rw [a2, hw.1]; rfl
    · intro j col hc
      unfold Implements
      rw [hs j, hw.2 j]
      exact .nil
  · push Not at hh
    rcases h.bytes with ⟨b1, b2, b3⟩ | ⟨b1, b2, ants, ops, b3, b4, b5⟩
    · left
      have hst : w'.cols.rowsPerBlock = 0 ∨ initializing w'.cols := by
        rcases unlaid_step b1 (fun i row v junk hx => hh i row v junk hx.1 hx.2) e1 with h1 | h1 | ⟨⟨i, row, v, m, h1⟩, h2⟩
        · exact .inl h1
        · exact .inr h1
        · obtain ⟨j, hj⟩ := init_succeeds hn h.reach e1 h2 (by rw [h1]; simp)
          rw [h1] at hj; cases hj
      have hl : ∀ i t b r, l = .thread i t → (w.cols.cols i).threads t ≠ .encode b r :=
        fun i t b r _ => unlaid_threads hn h.reach b1 i t b r
      refine ⟨hst, ?_, fun i => (other_writes hl e1 i).trans (b3 i)⟩
      rcases other_effect hl hh e2 with h1 | ⟨i, kk, dest, h1, h2, -⟩
      · exact h1.trans b2
      · exfalso
        have h0 : w.cols.rowsPerBlock = 0 := by
          rcases b1 with b1 | ⟨_, _, _, _, b1⟩ | ⟨_, _, _, b1⟩
          · exact b1
          · rw [h1] at b1; cases b1
          · rw [h1] at b1; cases b1
        obtain ⟨done, -, -, -, hr⟩ := column_alone hn h.reach i
        have hi := (initial_reachable_inv (hn i) (hr [])).client
        unfold ClientOK at hi
        rw [show (proj w.cols i []).client = .load kk from h2] at hi
        refine hi.2 ?_
        show (if uninit w.cols i then 0 else w.cols.rowsPerBlock) = 0
        rw [h0]; split <;> rfl
    · right
      obtain ⟨s1, s2⟩ := laid_step b1 b2 e1
      rw [s1]
      refine ⟨b1, s2, ants, ?_⟩
      by_cases hl : ∃ i t b r, l = .thread i t ∧ (w.cols.cols i).threads t = .encode b r
      · obtain ⟨i, t, b, r, rfl, hx⟩ := hl
        unfold Effect at e2
        simp only [hx] at e2
        obtain ⟨col, d, c1, c2, c3⟩ := e2
        obtain ⟨n1, n2⟩ := blockSteps_columns ops (newTable nRow w.cols.rowsPerBlock ants mt)
        rw [← b4] at n1 n2
        refine ⟨ops ++ [.write b i d], b3, by rw [c3, b4, List.foldl_append]; rfl, fun j colj hcj => ?_⟩
        have hj := b5 j colj hcj
        unfold Implements at hj ⊢
        simp only [mstep, Option.map_eq_some_iff] at e1
        obtain ⟨s, e3, e4⟩ := e1
        rw [← e4, colWrites_append]
        by_cases hji : j = i
        · subst hji
          have h1 : ((w.cols.set j s).cols j).writes = (w.cols.cols j).writes ++ [(b, r)] := by
            have h3 : s.writes = (w.cols.cols j).writes ++ [(b, r)] := encode_writes (s := w.cols.view j) hx e3
            simp [MState.set, h3]
          have h2 : colWrites j [.write b j d] = [(b, d)] := by simp [colWrites]
          rw [h1, h2]
          refine List.rel_append hj (.cons ⟨rfl, ?_⟩ .nil)
          rw [n1, hcj] at c1
          injection c1 with c1
          subst c1
          rw [n2] at c2
          exact c2
        · have h1 : ((w.cols.set i s).cols j).writes = (w.cols.cols j).writes := by
            simp [MState.set, Function.update_of_ne hji]
          have h2 : colWrites j [.write b i d] = [] := by
            have : ¬ i.val = j.val := fun hv => hji (Fin.ext hv.symm)
            simp [colWrites, this]
          rw [h1, h2, List.append_nil]
          exact hj
      · push Not at hl
        have hl' : ∀ i t b r, l = .thread i t → (w.cols.cols i).threads t ≠ .encode b r :=
          fun i t b r he => hl i t b r he
        have hw := other_writes hl' e1
        rcases other_effect hl' hh e2 with h1 | ⟨i, kk, dest, -, -, h1⟩
        · exact ⟨ops, b3, h1.trans b4, implements_same b5 hw fun _ => rfl⟩
        · refine ⟨ops ++ [.read (kk.row / w.cols.rowsPerBlock) i dest], b3,
            by rw [h1, b4, List.foldl_append]; rfl, implements_same b5 hw fun j => ?_⟩
          rw [colWrites_append]
          simp [colWrites]

end Dysco.World
